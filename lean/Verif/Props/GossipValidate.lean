import Verif.Model.GossipValidate
import Verif.Model.ErrorHandler
import Verif.Model.ForkWatchdog
/-!
# C48–C51, C68: validation of gossiped messages
-/

namespace KP2P
open KP2P.GossipValidate

namespace Spec

/-- A gossiped block is complete: it has an id, a header and a previous block. -/
def Complete (b : RawBlock) : Prop := b.id ≠ none ∧ ∃ h, b.header = some h ∧ h.previous ≠ none

/-- The height of a complete block is below the irreversible height. -/
def Below (b : RawBlock) (lib : UInt64) : Prop := ∃ h, b.header = some h ∧ h.height.toNat < lib.toNat

/-- The message carries a block of another node that is handed to the applicator. -/
def Handed (e : Env RawBlock) (m : Msg) (b : RawBlock) : Prop :=
  e.decode m.data = .ok b ∧ m.sender ≠ e.me ∧ Complete b ∧ ¬ Below b e.lib

/-- The message carries a transaction of another node that is handed to the applicator. -/
def HandedTx (e : Env Tx) (m : Msg) (t : Tx) : Prop :=
  e.decode m.data = .ok t ∧ m.sender ≠ e.me ∧ t.id ≠ none

end Spec
open Spec

/-- The five ways validation of a block can go. -/
private inductive BlockCase (e : Env RawBlock) (m : Msg) : List RawBlock × Option Err → Prop
  | undecodable (x : Err) : e.decode m.data = .error x → BlockCase e m ([], some (wrapS .deserialization x))
  | own (b : RawBlock) : e.decode m.data = .ok b → m.sender = e.me → BlockCase e m ([], none)
  | incomplete (b : RawBlock) : e.decode m.data = .ok b → m.sender ≠ e.me → ¬ Complete b →
      BlockCase e m ([], some (noteS .deserialization))
  | below (b : RawBlock) : e.decode m.data = .ok b → m.sender ≠ e.me → Complete b → Below b e.lib →
      BlockCase e m ([], some (.sentinel .blockIrreversibility))
  | refused (b : RawBlock) (x : Err) : Handed e m b → e.apply b = some x →
      BlockCase e m ([b], some (wrapS .blockApplication x))
  | applied (b : RawBlock) : Handed e m b → e.apply b = none → BlockCase e m ([b], none)

private theorem block_case (e : Env RawBlock) (m : Msg) : BlockCase e m (GossipValidate.applyBlock e m) := by
  unfold GossipValidate.applyBlock
  cases hd : e.decode m.data with
  | error x => exact .undecodable x hd
  | ok b =>
    dsimp only
    by_cases hs : m.sender = e.me
    · rw [if_pos hs]; exact .own b hd hs
    · rw [if_neg hs]
      cases hi : b.id with
      | none => exact .incomplete b hd hs fun h => h.1 hi
      | some i =>
        dsimp only
        cases hh : b.header with
        | none => exact .incomplete b hd hs fun h => by obtain ⟨_, h, h1, _⟩ := h; rw [hh] at h1; cases h1
        | some h =>
          dsimp only
          cases hp : h.previous with
          | none =>
            exact .incomplete b hd hs fun h' => by
              obtain ⟨_, h2, h1, h3⟩ := h'; rw [hh] at h1; cases h1; exact h3 hp
          | some p =>
            dsimp only
            have hc : Complete b := ⟨by rw [hi]; simp, h, hh, by rw [hp]; simp⟩
            by_cases hl : h.height < e.lib
            · rw [if_pos hl]
              exact .below b hd hs hc ⟨h, hh, UInt64.lt_iff_toNat_lt.1 hl⟩
            · rw [if_neg hl]
              have hb : ¬ Below b e.lib := by
                rintro ⟨h', h1, h2⟩
                rw [hh] at h1; cases h1
                exact hl (UInt64.lt_iff_toNat_lt.2 h2)
              cases ha : e.apply b with
              | some x => exact .refused b x ⟨hd, hs, hc, hb⟩ ha
              | none => exact .applied b ⟨hd, hs, hc, hb⟩ ha

private theorem case_of_own {e : Env RawBlock} {m : Msg} {b : RawBlock} (hd : e.decode m.data = .ok b)
    (hs : m.sender = e.me) : GossipValidate.applyBlock e m = ([], none) := by
  have h := block_case e m
  generalize GossipValidate.applyBlock e m = r at h
  cases h with
  | own => rfl
  | undecodable x h => rw [hd] at h; cases h
  | incomplete _ _ h => exact absurd hs h
  | below _ _ h => exact absurd hs h
  | refused _ _ h => exact absurd hs h.2.1
  | applied _ h => exact absurd hs h.2.1

private theorem case_of_handed {e : Env RawBlock} {m : Msg} {b : RawBlock} (hb : Handed e m b) :
    GossipValidate.applyBlock e m = ([b], (e.apply b).map (wrapS .blockApplication)) := by
  have h := block_case e m
  generalize GossipValidate.applyBlock e m = r at h
  cases h with
  | own _ _ h => exact absurd h hb.2.1
  | undecodable x h => rw [hb.1] at h; cases h
  | incomplete b' h _ h1 => rw [hb.1] at h; cases h; exact absurd hb.2.2.1 h1
  | below b' h _ _ h1 => rw [hb.1] at h; cases h; exact absurd h1 hb.2.2.2
  | refused b' x h h1 => have := h.1; rw [hb.1] at this; cases this; rw [h1]; rfl
  | applied b' h h1 => have := h.1; rw [hb.1] at this; cases this; rw [h1]; rfl

/-! ### C48: blocks -/

/-- C48. A gossiped block is accepted for relay iff it decodes and either comes from this node, or has id, header and
previous, is not below the irreversible height and is applied without error. -/
theorem C48_accept_iff (e : Env RawBlock) (m : Msg) :
    (validateBlock e m).accept = true ↔
      ∃ b, e.decode m.data = .ok b ∧
        (m.sender = e.me ∨ (Complete b ∧ ¬ Below b e.lib ∧ e.apply b = none)) := by
  constructor
  · intro h
    have hc := block_case e m
    unfold validateBlock at h
    generalize GossipValidate.applyBlock e m = r at h hc
    cases hc with
    | own b hd hs => exact ⟨b, hd, .inl hs⟩
    | applied b hb ha => exact ⟨b, hb.1, .inr ⟨hb.2.2.1, hb.2.2.2, ha⟩⟩
    | undecodable | incomplete | below | refused => dsimp only at h; split at h <;> cases h
  · rintro ⟨b, hd, h⟩
    by_cases hs : m.sender = e.me
    · unfold validateBlock; rw [case_of_own hd hs]
    · obtain ⟨h1, h2, h3⟩ := h.resolve_left hs
      unfold validateBlock
      rw [case_of_handed ⟨hd, hs, h1, h2⟩, h3]; rfl

/-- C48. A block is handed to the applicator at most once, and only if it is a complete block of another node that is not
below the irreversible height; blocks of this node never are. -/
theorem C48_applied_iff (e : Env RawBlock) (m : Msg) :
    (∀ b, Handed e m b → (validateBlock e m).applied = [b]) ∧
    ((∀ b, ¬ Handed e m b) → (validateBlock e m).applied = []) ∧
    (m.sender = e.me → (validateBlock e m).applied = []) := by
  have key : (validateBlock e m).applied = (GossipValidate.applyBlock e m).1 := by
    unfold validateBlock
    rcases GossipValidate.applyBlock e m with ⟨bs, _ | x⟩
    · rfl
    · dsimp only; split <;> rfl
  refine ⟨fun b hb => ?_, fun hn => ?_, fun hs => ?_⟩
  · rw [key, case_of_handed hb]
  · rw [key]
    have h := block_case e m
    generalize GossipValidate.applyBlock e m = r at h
    cases h with
    | refused b x h => exact absurd h (hn b)
    | applied b h => exact absurd h (hn b)
    | _ => rfl
  · rw [key]
    have h := block_case e m
    generalize GossipValidate.applyBlock e m = r at h
    cases h with
    | refused b x h => exact absurd hs h.2.1
    | applied b h => exact absurd hs h.2.1
    | _ => rfl

/-- C48. Malformed blocks never crash the node: every block handed to the applicator has a header, so the first thing done
with it (counting it in the fork watchdog) does not dereference a missing header, whatever the watchdog remembers. -/
theorem C48_no_crash (e : Env RawBlock) (m : Msg) (b : RawBlock) (h : b ∈ (validateBlock e m).applied)
    (f : ForkWatchdog) : f.add b ≠ none := by
  have hb : Handed e m b := by
    by_cases hex : ∃ b', Handed e m b'
    · obtain ⟨b', hb'⟩ := hex
      rw [(C48_applied_iff e m).1 b' hb'] at h
      rw [List.mem_singleton.1 h]; exact hb'
    · rw [(C48_applied_iff e m).2.1 fun b' hb' => hex ⟨b', hb'⟩] at h; cases h
  obtain ⟨_, hd, hh, _⟩ := hb.2.2.1
  unfold ForkWatchdog.add RawBlock.toBlk
  rw [hh]; simp

/-- C48. A block is reported to the error handler iff it is refused for another reason than irreversibility; accepted
blocks are never reported. -/
theorem C48_report (e : Env RawBlock) (m : Msg) :
    ((validateBlock e m).accept = true → (validateBlock e m).report = none) ∧
    ((∃ x, e.decode m.data = .error x) → ∃ x, (validateBlock e m).report = some (m.receivedFrom, x) ∧
      x.is .deserialization = true) ∧
    (∀ b, e.decode m.data = .ok b → m.sender ≠ e.me → ¬ Complete b →
      ∃ x, (validateBlock e m).report = some (m.receivedFrom, x) ∧ x.is .deserialization = true) := by
  refine ⟨?_, ?_, ?_⟩
  · unfold validateBlock
    rcases GossipValidate.applyBlock e m with ⟨bs, _ | x⟩
    · intro _; rfl
    · dsimp only; split <;> intro h <;> cases h
  · rintro ⟨x, hx⟩
    have h := block_case e m
    unfold validateBlock
    generalize GossipValidate.applyBlock e m = r at h
    cases h with
    | undecodable y _ => exact ⟨_, rfl, rfl⟩
    | own b hd => rw [hx] at hd; cases hd
    | incomplete b hd => rw [hx] at hd; cases hd
    | below b hd => rw [hx] at hd; cases hd
    | refused b _ hd => have := hd.1; rw [hx] at this; cases this
    | applied b hd => have := hd.1; rw [hx] at this; cases this
  · intro b hb hs hc
    have h := block_case e m
    unfold validateBlock
    generalize GossipValidate.applyBlock e m = r at h
    cases h with
    | undecodable y hd => rw [hb] at hd; cases hd
    | own b' hd h => exact absurd h hs
    | incomplete b' hd => exact ⟨_, rfl, rfl⟩
    | below b' hd _ h => rw [hb] at hd; cases hd; exact absurd h hc
    | refused b' _ hd => have := hd.1; rw [hb] at this; cases this; exact absurd hd.2.2.1 hc
    | applied b' hd => have := hd.1; rw [hb] at this; cases this; exact absurd hd.2.2.1 hc

private def exBlk : RawBlock := ⟨some [5], some ⟨some [4], 5, 0, none⟩, [], []⟩

/-- A node with id 1 and irreversible height `lib` whose applicator gives the answer `a`. -/
private def exEnv (lib : UInt64) (a : Option Err) : Env RawBlock :=
  ⟨[1], fun d => if d = [0] then .error (.other 0) else .ok exBlk, lib, fun _ => a, fun _ => [7]⟩

private def exMsg : Msg := ⟨[9], [7], [2], [3]⟩

private theorem exHanded (lib : UInt64) (a : Option Err) (h : lib.toNat ≤ 5) : Handed (exEnv lib a) exMsg exBlk := by
  refine ⟨rfl, (by decide : [(7 : UInt8)] ≠ [1]), ⟨by simp [exBlk], _, rfl, by simp⟩, ?_⟩
  rintro ⟨h', e1, e2⟩
  cases e1
  exact absurd e2 (Nat.not_lt.2 h)

example : (validateBlock (exEnv 3 none) exMsg).accept = true :=
  (C48_accept_iff _ _).2 ⟨exBlk, rfl, .inr ⟨(exHanded 3 none (by decide)).2.2.1, (exHanded 3 none (by decide)).2.2.2, rfl⟩⟩
example : validateBlock (exEnv 3 none) exMsg = ⟨[exBlk], true, none⟩ := by decide +kernel
example : validateBlock (exEnv 3 none) { exMsg with sender := [1] } = ⟨[], true, none⟩ := by decide +kernel
example : (validateBlock (exEnv 3 none) { exMsg with data := [0] }).accept = false := by decide +kernel

/-! ### C49: fork bombs -/

/-- The claim: a fork bomb received by gossip is reported for the author of the message, and scored as a fork bomb. -/
def ForkBombsPunished (o : ErrOpts) (e : Env RawBlock) (m : Msg) : Prop :=
  ∀ b x, Handed e m b → e.apply b = some x → x.is .forkBomb = true →
    ∃ y, (validateBlock e m).report = some (e.author m.key, y) ∧ getScoreForError o y = o.forkBomb

/-- C49 refuted: whenever a gossiped block is refused as a fork bomb, the relaying peer is reported instead, with an error
that is not a fork bomb and is scored as an ordinary application error. -/
theorem C49_fork_bomb_refuted (o : ErrOpts) (e : Env RawBlock) (m : Msg) (b : RawBlock) (x : Err) (hb : Handed e m b)
    (ha : e.apply b = some x) (hf : x.is .forkBomb = true) :
    (∃ y, (validateBlock e m).report = some (m.receivedFrom, y) ∧ y.is .forkBomb = false ∧
      getScoreForError o y = o.blockApplication) ∧
    (o.forkBomb ≠ o.blockApplication ∨ e.author m.key ≠ m.receivedFrom → ¬ ForkBombsPunished o e m) := by
  have hr : (validateBlock e m).report = some (m.receivedFrom, wrapS .blockApplication x) := by
    unfold validateBlock
    rw [case_of_handed hb, ha]
    rfl
  refine ⟨⟨_, hr, rfl, rfl⟩, ?_⟩
  intro hne h
  obtain ⟨y, h1, h2⟩ := h b x hb ha hf
  rw [hr] at h1
  injection h1 with h1
  injection h1 with h3 h4
  subst h4
  rcases hne with hne | hne
  · exact hne h2.symm
  · exact hne h3.symm

/- With the default scores the two differ, and the premises can be met. -/
example : ErrOpts.default.forkBomb ≠ ErrOpts.default.blockApplication := by decide +kernel
example : ¬ ForkBombsPunished ErrOpts.default (exEnv 3 (some (.sentinel .forkBomb))) exMsg :=
  (C49_fork_bomb_refuted _ _ _ exBlk _ (exHanded 3 _ (by decide)) rfl rfl).2 (.inl (by decide +kernel))

/-- C49 as far as it holds: a block refused as a fork bomb is not relayed and a peer error is reported. -/
theorem C49_not_relayed_partial (e : Env RawBlock) (m : Msg) (b : RawBlock) (x : Err) (hb : Handed e m b)
    (ha : e.apply b = some x) : (validateBlock e m).accept = false ∧ (validateBlock e m).report ≠ none := by
  unfold validateBlock
  rw [case_of_handed hb, ha]
  exact ⟨rfl, by simp [Err.is_wrapS]⟩

/-! ### C50: irreversible blocks -/

/-- The claim: a peer relaying a block that is already irreversible is not reported. A complete block is irreversible if
it is at most at the irreversible height, or if the chain says so. -/
def IrreversibleUnpunished (e : Env RawBlock) (m : Msg) : Prop :=
  ∀ b h, e.decode m.data = .ok b → m.sender ≠ e.me → Complete b → b.header = some h →
    (h.height.toNat ≤ e.lib.toNat ∨ ∃ x, e.apply b = some x ∧ x.is .blockIrreversibility = true) →
    (validateBlock e m).report = none

/-- C50 refuted: a block at the irreversible height, or one the chain calls irreversible, is reported and scored as an
ordinary application error whenever the applicator refuses it. -/
theorem C50_unpunished_refuted (o : ErrOpts) (e : Env RawBlock) (m : Msg) (b : RawBlock) (h : Header) (x : Err)
    (hb : Handed e m b) (hh : b.header = some h) (ha : e.apply b = some x)
    (hi : h.height = e.lib ∨ x.is .blockIrreversibility = true) :
    (∃ y, (validateBlock e m).report = some (m.receivedFrom, y) ∧ getScoreForError o y = o.blockApplication) ∧
    ¬ IrreversibleUnpunished e m := by
  have hr : (validateBlock e m).report = some (m.receivedFrom, wrapS .blockApplication x) := by
    unfold validateBlock
    rw [case_of_handed hb, ha]
    rfl
  refine ⟨⟨_, hr, rfl⟩, fun hc => ?_⟩
  have := hc b h hb.1 hb.2.1 hb.2.2.1 hh (by
    rcases hi with hi | hi
    · exact .inl (by rw [hi])
    · exact .inr ⟨x, ha, hi⟩)
  rw [hr] at this; cases this

example : ¬ IrreversibleUnpunished (exEnv 5 (some (.sentinel .blockIrreversibility))) exMsg :=
  (C50_unpunished_refuted ErrOpts.default _ _ exBlk _ _ (exHanded 5 _ (by decide)) rfl rfl (.inl rfl)).2

/-- C50 as far as it holds: a complete block strictly below the irreversible height is dropped without a report and
without being handed to the applicator. -/
theorem C50_below_partial (e : Env RawBlock) (m : Msg) (b : RawBlock) (hd : e.decode m.data = .ok b)
    (hs : m.sender ≠ e.me) (hc : Complete b) (hl : Below b e.lib) :
    validateBlock e m = ⟨[], false, none⟩ := by
  have h := block_case e m
  unfold validateBlock
  generalize GossipValidate.applyBlock e m = r at h
  cases h with
  | below => rfl
  | undecodable y h => rw [hd] at h; cases h
  | own b' _ h => exact absurd h hs
  | incomplete b' h _ h1 => rw [hd] at h; cases h; exact absurd hc h1
  | refused b' _ h => have := h.1; rw [hd] at this; cases this; exact absurd hl h.2.2.2
  | applied b' h => have := h.1; rw [hd] at this; cases this; exact absurd hl h.2.2.2

example : validateBlock (exEnv 6 none) exMsg = ⟨[], false, none⟩ :=
  C50_below_partial _ _ exBlk rfl (by decide) ⟨by simp [exBlk], _, rfl, by simp⟩ ⟨_, rfl, by decide⟩

/-! ### C51: transactions -/

private inductive TxCase (e : Env Tx) (m : Msg) : List Tx × Option Err → Prop
  | undecodable (x : Err) : e.decode m.data = .error x → TxCase e m ([], some (wrapS .deserialization x))
  | own (t : Tx) : e.decode m.data = .ok t → m.sender = e.me → TxCase e m ([], none)
  | noId (t : Tx) : e.decode m.data = .ok t → m.sender ≠ e.me → t.id = none →
      TxCase e m ([], some (noteS .deserialization))
  | nonce (t : Tx) (x : Err) : HandedTx e m t → e.apply t = some x → x.is .invalidNonce = true →
      TxCase e m ([t], some (wrapS .invalidNonce x))
  | refused (t : Tx) (x : Err) : HandedTx e m t → e.apply t = some x → x.is .invalidNonce = false →
      TxCase e m ([t], some (wrapS .transactionApplication x))
  | applied (t : Tx) : HandedTx e m t → e.apply t = none → TxCase e m ([t], none)

private theorem tx_case (e : Env Tx) (m : Msg) : TxCase e m (GossipValidate.applyTransaction e m) := by
  unfold GossipValidate.applyTransaction
  cases hd : e.decode m.data with
  | error x => exact .undecodable x hd
  | ok t =>
    dsimp only
    by_cases hs : m.sender = e.me
    · rw [if_pos hs]; exact .own t hd hs
    · rw [if_neg hs]
      cases hi : t.id with
      | none => exact .noId t hd hs hi
      | some i =>
        dsimp only
        have hh : HandedTx e m t := ⟨hd, hs, by rw [hi]; simp⟩
        cases ha : e.apply t with
        | none => exact .applied t hh ha
        | some x =>
          dsimp only
          cases hx : x.is .invalidNonce with
          | true => exact .nonce t x hh ha hx
          | false => exact .refused t x hh ha hx

/-- C51. A gossiped transaction is accepted for relay iff it decodes and either comes from this node, or carries an id
and is applied without error. -/
theorem C51_accept_iff (e : Env Tx) (m : Msg) :
    (validateTransaction e m).accept = true ↔
      ∃ t, e.decode m.data = .ok t ∧ (m.sender = e.me ∨ (t.id ≠ none ∧ e.apply t = none)) := by
  have hc := tx_case e m
  unfold validateTransaction
  generalize GossipValidate.applyTransaction e m = r at hc
  cases hc with
  | own t hd hs => exact ⟨fun _ => ⟨t, hd, .inl hs⟩, fun _ => rfl⟩
  | applied t hb ha => exact ⟨fun _ => ⟨t, hb.1, .inr ⟨hb.2.2, ha⟩⟩, fun _ => rfl⟩
  | undecodable x hx =>
    refine ⟨fun h => (by cases h), ?_⟩
    rintro ⟨t, hd, _⟩; rw [hx] at hd; cases hd
  | noId t hd hs hi =>
    refine ⟨fun h => (by cases h), ?_⟩
    rintro ⟨t', hd', h⟩; rw [hd] at hd'; cases hd'
    rcases h with h | h
    · exact absurd h hs
    · exact absurd hi h.1
  | nonce t x hb ha _ =>
    refine ⟨fun h => (by cases h), ?_⟩
    rintro ⟨t', hd', h⟩; rw [hb.1] at hd'; cases hd'
    rcases h with h | h
    · exact absurd h hb.2.1
    · rw [ha] at h; cases h.2
  | refused t x hb ha _ =>
    refine ⟨fun h => (by cases h), ?_⟩
    rintro ⟨t', hd', h⟩; rw [hb.1] at hd'; cases hd'
    rcases h with h | h
    · exact absurd h hb.2.1
    · rw [ha] at h; cases h.2

/-- C51. Every refused transaction is blamed on the relaying peer: as a deserialization error if it does not decode or
carries no id, otherwise as an invalid nonce exactly if the application says so and else as a failed application. Accepted
transactions are never reported. -/
theorem C51_blame (e : Env Tx) (m : Msg) :
    ((validateTransaction e m).accept = true → (validateTransaction e m).report = none) ∧
    ((∃ x, e.decode m.data = .error x) ∨ (∃ t, e.decode m.data = .ok t ∧ m.sender ≠ e.me ∧ t.id = none) →
      ∃ y, (validateTransaction e m).report = some (m.receivedFrom, y) ∧ y.is .deserialization = true) ∧
    (∀ t x, HandedTx e m t → e.apply t = some x → ∃ y, (validateTransaction e m).report = some (m.receivedFrom, y) ∧
      y.is (if x.is .invalidNonce then .invalidNonce else .transactionApplication) = true) := by
  have hc := tx_case e m
  unfold validateTransaction
  generalize GossipValidate.applyTransaction e m = r at hc
  cases hc with
  | own t hd hs =>
    refine ⟨fun _ => rfl, ?_, ?_⟩
    · rintro (⟨x, hx⟩ | ⟨t', h1, h2, _⟩)
      · rw [hd] at hx; cases hx
      · exact absurd hs h2
    · intro t' x h; exact absurd hs h.2.1
  | applied t hb ha =>
    refine ⟨fun _ => rfl, ?_, ?_⟩
    · rintro (⟨x, hx⟩ | ⟨t', h1, h2, h3⟩)
      · have := hb.1; rw [hx] at this; cases this
      · have := hb.1; rw [h1] at this; cases this; exact absurd h3 hb.2.2
    · intro t' x h h1
      have := hb.1; rw [h.1] at this; cases this; rw [ha] at h1; cases h1
  | undecodable x hx =>
    refine ⟨fun h => (by cases h), fun _ => ⟨_, rfl, rfl⟩, ?_⟩
    intro t y h; have := h.1; rw [hx] at this; cases this
  | noId t hd hs hi =>
    refine ⟨fun h => (by cases h), fun _ => ⟨_, rfl, rfl⟩, ?_⟩
    intro t' y h; have := h.1; rw [hd] at this; cases this; exact absurd hi h.2.2
  | nonce t x hb ha hx =>
    refine ⟨fun h => (by cases h), ?_, ?_⟩
    · rintro (⟨y, hy⟩ | ⟨t', h1, h2, h3⟩)
      · have := hb.1; rw [hy] at this; cases this
      · have := hb.1; rw [h1] at this; cases this; exact absurd h3 hb.2.2
    · intro t' y h h1
      have := hb.1; rw [h.1] at this; cases this; rw [ha] at h1; cases h1
      exact ⟨_, rfl, by rw [hx]; rfl⟩
  | refused t x hb ha hx =>
    refine ⟨fun h => (by cases h), ?_, ?_⟩
    · rintro (⟨y, hy⟩ | ⟨t', h1, h2, h3⟩)
      · have := hb.1; rw [hy] at this; cases this
      · have := hb.1; rw [h1] at this; cases this; exact absurd h3 hb.2.2
    · intro t' y h h1
      have := hb.1; rw [h.1] at this; cases this; rw [ha] at h1; cases h1
      exact ⟨_, rfl, by rw [hx]; rfl⟩

/-- C51. A transaction is handed to the applicator at most once; transactions of this node, undecodable ones and those
without id never are. -/
theorem C51_applied_iff (e : Env Tx) (m : Msg) :
    (∀ t, HandedTx e m t → (validateTransaction e m).applied = [t]) ∧
    ((∀ t, ¬ HandedTx e m t) → (validateTransaction e m).applied = []) := by
  have hc := tx_case e m
  unfold validateTransaction
  generalize GossipValidate.applyTransaction e m = r at hc
  cases hc with
  | own t hd hs => exact ⟨fun t' h => absurd hs h.2.1, fun _ => rfl⟩
  | undecodable x hx => exact ⟨fun t' h => (by have := h.1; rw [hx] at this; cases this), fun _ => rfl⟩
  | noId t hd hs hi =>
    exact ⟨fun t' h => (by have := h.1; rw [hd] at this; cases this; exact absurd hi h.2.2), fun _ => rfl⟩
  | nonce t x hb => exact ⟨fun t' h => by have := h.1; rw [hb.1] at this; cases this; rfl, fun h => absurd hb (h t)⟩
  | refused t x hb => exact ⟨fun t' h => by have := h.1; rw [hb.1] at this; cases this; rfl, fun h => absurd hb (h t)⟩
  | applied t hb => exact ⟨fun t' h => by have := h.1; rw [hb.1] at this; cases this; rfl, fun h => absurd hb (h t)⟩

private def exTxEnv (a : Option Err) : Env Tx := ⟨[1], fun _ => .ok ⟨some [8], []⟩, 0, fun _ => a, fun _ => [7]⟩

example : validateTransaction (exTxEnv none) exMsg = ⟨[⟨some [8], []⟩], true, none⟩ := by decide +kernel
example : validateTransaction (exTxEnv (some (noteS .invalidNonce))) exMsg =
    ⟨[⟨some [8], []⟩], false, some ([2], wrapS .invalidNonce (noteS .invalidNonce))⟩ := by decide +kernel
example : HandedTx (exTxEnv none) exMsg ⟨some [8], []⟩ :=
  ⟨rfl, (by decide : [(7 : UInt8)] ≠ [1]), by simp⟩

/-! ### C68: failures of our own node -/

/-- The failures that are this node's own. -/
def ownFailures : List Sentinel := [.localRPC, .localRPCTimeout, .processRequestTimeout, .serialization]

/-- The claim: when a gossiped block could not be applied because of a failure of this node itself, the relaying peer is
not charged more than that failure is worth. -/
def OwnFailuresUnpunished (o : ErrOpts) (e : Env RawBlock) (m : Msg) : Prop :=
  ∀ b x, Handed e m b → e.apply b = some x → (∃ s ∈ ownFailures, x.is s = true) →
    ∀ p y, (validateBlock e m).report = some (p, y) → (getScoreForError o y).toNat ≤ (getScoreForError o x).toNat

/-- C68 refuted: whatever the failure of this node, the relaying peer is charged the full score of a failed block
application. -/
theorem C68_own_failure_refuted (o : ErrOpts) (e : Env RawBlock) (m : Msg) (b : RawBlock) (x : Err) (hb : Handed e m b)
    (ha : e.apply b = some x) (hs : ∃ s ∈ ownFailures, x.is s = true) :
    (∃ y, (validateBlock e m).report = some (m.receivedFrom, y) ∧ getScoreForError o y = o.blockApplication) ∧
    ((getScoreForError o x).toNat < o.blockApplication.toNat → ¬ OwnFailuresUnpunished o e m) := by
  have hr : (validateBlock e m).report = some (m.receivedFrom, wrapS .blockApplication x) := by
    unfold validateBlock
    rw [case_of_handed hb, ha]
    rfl
  refine ⟨⟨_, hr, rfl⟩, fun hlt h => ?_⟩
  have := h b x hb ha hs _ _ hr
  exact absurd this (Nat.not_le.2 hlt)

/- With the default scores an unreachable chain costs each relaying peer 5000 per block instead of nothing; 20 such
blocks reach the threshold of 100000. -/
example : ¬ OwnFailuresUnpunished ErrOpts.default (exEnv 3 (some (noteS .localRPC))) exMsg :=
  (C68_own_failure_refuted _ _ _ exBlk _ (exHanded 3 _ (by decide)) rfl ⟨.localRPC, by decide, rfl⟩).2
    (by decide +kernel)
example : getScoreForError ErrOpts.default (noteS .localRPC) = 0 ∧
    20 * ErrOpts.default.blockApplication = ErrOpts.default.threshold := by decide +kernel

/-- C68 as far as it holds: without an answer from the applicator (block of this node, undecodable, incomplete or below
the irreversible height) no score of a failed application is charged. -/
theorem C68_not_handed_partial (e : Env RawBlock) (m : Msg) (hn : ∀ b, ¬ Handed e m b) (p : Bytes) (y : Err)
    (hr : (validateBlock e m).report = some (p, y)) : y.is .deserialization = true ∧ p = m.receivedFrom := by
  have h := block_case e m
  unfold validateBlock at hr
  generalize GossipValidate.applyBlock e m = r at h hr
  cases h with
  | refused b x h => exact absurd h (hn b)
  | applied b h => exact absurd h (hn b)
  | own => cases hr
  | below => cases hr
  | undecodable x _ => cases hr; exact ⟨rfl, rfl⟩
  | incomplete b _ _ _ => cases hr; exact ⟨rfl, rfl⟩

end KP2P

import Verif.Model.Peering
import Verif.Props.PeerConn
import Verif.Props.PeerRPC
import Mathlib.Tactic.IntervalCases
/-!
# C77, C78, C79: what an honest peer says, and what follows for two honest nodes
-/

namespace KP2P
open KP2P.PeerRPC KP2P.PeerConn KP2P.Peering KP2P.Spec.PeerConn

/-! ### C77: the service repeats the local store -/

/-- C77. An ancestor is named iff the block store answered with exactly one block, and it is that block's id; the service
does not crash on this question. -/
theorem C77_ancestor (l : Local) (parent : Bytes) (height : UInt64) :
    (∀ id, serveAncestor l parent height = .ok id ↔ ∃ i, l.byHeight parent height 1 = .ok [i] ∧ i.id = id) ∧
    (∀ items, l.byHeight parent height 1 = .ok items → items.length ≠ 1 → ∃ e, serveAncestor l parent height = .err e) ∧
    (∀ e, l.byHeight parent height 1 = .error e → serveAncestor l parent height = .err e) ∧
    serveAncestor l parent height ≠ .panic := by
  unfold serveAncestor
  cases h : l.byHeight parent height 1 with
  | error e => simp
  | ok items =>
    match items with
    | [] => simp
    | [i] => simp
    | i :: j :: is => simp

/-- C77. The chain id and the head are those of the local chain. -/
theorem C77_chain (l : Local) :
    (∀ id, serveChainID l = .ok id ↔ l.chainID = .ok id) ∧
    (∀ e, serveChainID l = .err e ↔ l.chainID = .error e) ∧
    (∀ id height, serveHeadBlock l = .ok (id, height) ↔ l.head = .ok (some ⟨id, height⟩)) ∧
    (∀ e, serveHeadBlock l = .err e ↔ l.head = .error e) ∧
    (serveHeadBlock l = .panic ↔ l.head = .ok none) := by
  unfold serveChainID serveHeadBlock
  refine ⟨?_, ?_, ?_, ?_, ?_⟩
  · intro id; cases l.chainID <;> simp
  · intro id; cases l.chainID <;> simp
  · intro id height
    cases l.head with
    | error e => simp
    | ok t => cases t with
      | none => simp
      | some t => cases t; simp
  · intro e
    cases l.head with
    | error e => simp
    | ok t => cases t <;> simp
  · cases l.head with
    | error e => simp
    | ok t => cases t <;> simp

/-- C77. Blocks are served iff the block store answers and every block item can be encoded; then there is one encoded
block per item, in order. The service does not crash on this question. -/
theorem C77_blocks (c : Codec) (l : Local) (head : Bytes) (start : UInt64) (num : UInt32) :
    (∀ xs, serveBlocks c l head start num = .ok xs ↔ ∃ items, l.byHeight head start num = .ok items ∧
      List.Forall₂ (fun i x => c.marshal i.block = .ok x) items xs) ∧
    serveBlocks c l head start num ≠ .panic := by
  constructor
  · intro xs
    refine ⟨C67_as_asked_partial c l head start num xs, ?_⟩
    rintro ⟨items, hi, hf⟩
    unfold serveBlocks
    rw [hi]; dsimp only
    have : encodeAll c items = .ok xs := by
      clear hi
      induction hf with
      | nil => rfl
      | cons h _ ih => unfold encodeAll; rw [h, ih]
    rw [this]
  · unfold serveBlocks
    cases l.byHeight head start num with
    | error e => simp
    | ok items => dsimp only; cases encodeAll c items <;> simp

private def exLocal : Local :=
  { chainID := .ok [1]
    head := .ok (some ⟨[9], 9⟩)
    byHeight := fun _ h n => if n = 1 then .ok [⟨[h.toUInt8], h, none⟩] else .ok [] }

example : serveAncestor exLocal [9] 4 = .ok [4] := by decide +kernel
example : serveAncestor { exLocal with byHeight := fun _ _ _ => .ok [] } [9] 4 = .err (.other 0) := by decide +kernel
example : serveHeadBlock { exLocal with head := .ok none } = .panic := by decide +kernel

/-! ### C78: two honest nodes on the same chain accept each other -/

theorem askChainID_ok (remote : Err → Nat) (l : Local) (id : Bytes) :
    askChainID remote l = .ok id ↔ l.chainID = .ok id := by
  unfold askChainID serveChainID
  cases l.chainID <;> simp [deliver, getChainID, toExcept]

theorem askHead_ok (remote : Err → Nat) (l : Local) (id : Bytes) (height : UInt64) :
    askHead remote l = .ok (id, height) ↔ l.head = .ok (some ⟨id, height⟩) := by
  unfold askHead serveHeadBlock
  cases l.head with
  | error e => simp [deliver, getHeadBlock, toExcept]
  | ok t => cases t with
    | none => simp [deliver, getHeadBlock, toExcept]
    | some t => cases t; simp [deliver, getHeadBlock, toExcept]

theorem askAncestor_ok (remote : Err → Nat) (l : Local) (head : Bytes) (height : UInt64) (id : Bytes) :
    askAncestor remote l head height = .ok id ↔ ∃ i, l.byHeight head height 1 = .ok [i] ∧ i.id = id := by
  rw [← (C77_ancestor l head height).1 id]
  unfold askAncestor getAncestorBlockID
  dsimp only
  cases serveAncestor l head height <;> simp [deliver, toExcept]

/-- The peer's own data: same chain, and its block store knows every checkpoint below its head. -/
def SameNetwork (o : Opts) (mine : Bytes) (l : Local) : Prop :=
  l.chainID = .ok mine ∧ ∃ id height, l.head = .ok (some ⟨id, height⟩) ∧
    ∀ c ∈ o.checkpoints, ∃ i, l.byHeight id c.height 1 = .ok [i] ∧ i.id = c.id

/-- C78. A handshake with an honest peer succeeds iff the peer's own node is on our chain and knows our checkpoints as
ancestors of its head (its version being readable or missing). -/
theorem C78_handshake (o : Opts) (remote : Err → Nat) (v : Except Err Version) (mine : Bytes) (l : Local)
    (hv : (∃ x, v = .ok x) ∨ ∃ err, v = .error err ∧ err.is .protocolMissing = true) :
    (handshake o (hsEnv remote v (.ok mine) l)).err = none ↔ SameNetwork o mine l := by
  rw [C37_admits_exactly]
  unfold Matching SameNetwork VersionOk SameChain OnCheckpoint
  simp only [hsEnv, askChainID_ok, askHead_ok, askAncestor_ok]
  constructor
  · rintro ⟨_, ⟨id, h1, h2⟩, head, height, h3, h4⟩
    cases h1
    refine ⟨h2, head, height, h3, fun c hc => ?_⟩
    obtain ⟨i, hi, hc'⟩ := List.getElem_of_mem hc
    exact h4 i c (by rw [List.getElem?_eq_getElem hi, hc'])
  · rintro ⟨h2, head, height, h3, h4⟩
    exact ⟨hv, ⟨mine, rfl, h2⟩, head, height, h3, fun i c hc => h4 c (List.mem_of_getElem? hc)⟩

/-- C78. Two honest nodes on one chain without checkpoints accept each other, in both directions. -/
theorem C78_mutual (o₁ o₂ : Opts) (remote : Err → Nat) (v₁ v₂ : Version) (id : Bytes) (l₁ l₂ : Local)
    (h₁ : l₁.chainID = .ok id) (h₂ : l₂.chainID = .ok id) (t₁ t₂ : Lib) (hd₁ : l₁.head = .ok (some t₁))
    (hd₂ : l₂.head = .ok (some t₂)) (hc₁ : o₁.checkpoints = []) (hc₂ : o₂.checkpoints = []) :
    (handshake o₁ (hsEnv remote (.ok v₂) l₁.chainID l₂)).err = none ∧
    (handshake o₂ (hsEnv remote (.ok v₁) l₂.chainID l₁)).err = none := by
  rw [h₁, h₂]
  constructor
  · exact (C78_handshake o₁ remote _ id l₂ (Or.inl ⟨_, rfl⟩)).2 ⟨h₂, t₂.id, t₂.height, hd₂, by simp [hc₁]⟩
  · exact (C78_handshake o₂ remote _ id l₁ (Or.inl ⟨_, rfl⟩)).2 ⟨h₁, t₁.id, t₁.height, hd₁, by simp [hc₂]⟩

/-- C78. A round with an honest peer that is ahead on our chain and whose blocks we can encode and decode hands exactly
the peer's blocks to the applicator, in order, and ends well if none is refused for another reason than being
irreversible. -/
theorem C78_round (o : Opts) (hb0 : 0 < o.batch.toNat) (hb : o.batch.toNat < 2 ^ 32) (c : Codec) (remote : Err → Nat)
    (lib : Lib) (known : Bytes → Except Err (List UInt64)) (apply : Nat → RawBlock → Option Err) (l : Local)
    (synced : Bool) (id : Bytes) (height : UInt64) (hd : l.head = .ok (some ⟨id, height⟩))
    (hup : lib.height.toNat < height.toNat) (hk : known id = .ok [0])
    (ha : 0 < lib.height.toNat → ∃ i, l.byHeight id lib.height 1 = .ok [i] ∧ i.id = lib.id)
    (items : List Item) (bs : List RawBlock) (hi : items.map Item.block = bs.map some)
    (hs : ∀ s n, s.toNat = lib.height.toNat + 1 → n.toNat = min (height.toNat - lib.height.toNat) o.batch.toNat →
      l.byHeight id s n = .ok items)
    (hn : bs.length = min (height.toNat - lib.height.toNat) o.batch.toNat) (hf : ∀ b ∈ bs, Faithful c b)
    (hh : ∀ b ∈ bs, b.header.isSome) (hp : ∀ j b, bs[j]? = some b → Passes (apply j b)) :
    let r := requestSyncBlocks o (syncEnv c remote lib known apply l) synced
    applied r.calls = bs ∧ r.out = .ok := by
  intro r
  set e := syncEnv c remote lib known apply l with he
  have hw : Wanted e id height := by
    refine ⟨(askHead_ok remote l id height).2 hd, hup, hk, fun h0 => ?_⟩
    exact (askAncestor_ok remote l id lib.height lib.id).2 (ha h0)
  have hht := height.toNat_lt
  -- the request made
  obtain ⟨s, n, hsn⟩ : ∃ s n, Call.peerBlocks id s n ∈ r.calls := by
    refine ⟨UInt64.ofNat (lib.height.toNat + 1), UInt32.ofNat (min (height.toNat - lib.height.toNat) o.batch.toNat), ?_⟩
    refine (C39_window o e synced id _ _).2 ⟨height, hw, ?_, ?_⟩
    · rw [UInt64.toNat_ofNat', Nat.mod_eq_of_lt (by omega)]; rfl
    · rw [UInt32.toNat_ofNat']; rfl
  obtain ⟨hd', hw', hs1, hn1⟩ := (C39_window o e synced id s n).1 hsn
  have hhd : hd' = height := by
    have := hw'.1; rw [hw.1] at this; cases this; rfl
  subst hhd
  have hn2 : n.toNat = min (hd'.toNat - lib.height.toNat) o.batch.toNat := by
    rw [hn1, Nat.mod_eq_of_lt (by omega)]; rfl
  have hbl : e.blocks id s n = .ok bs :=
    C44_honest c l remote id s n items bs (hs s n hs1 hn2) hi (by rw [hn, hn2]) hf
  have hlen : 0 < bs.length := by rw [hn]; omega
  have hpass : ∀ j b, bs[j]? = some b → b.header.isSome ∧ Passes (e.apply j b) := fun j b hj =>
    ⟨hh b (List.mem_of_getElem? hj), hp j b hj⟩
  obtain ⟨k, hk', hcase⟩ := C40_in_order o e synced id s n hsn bs hbl
  rcases hcase with ⟨hkl, _, ho⟩ | ⟨j, b, x, _, hj, _, hx, hnp, _⟩ | ⟨j, b, _, hj, hnone, _⟩
  · refine ⟨by rw [hk', hkl, List.take_length], ?_⟩
    rcases ho with ho | ⟨h0, _⟩
    · exact ho
    · rw [h0] at hlen; cases hlen
  · exact absurd (hx ▸ (hpass j b hj).2) hnp
  · have := (hpass j b hj).1; rw [hnone] at this; cases this

example : SameNetwork { Opts.default with checkpoints := [⟨4, [4]⟩] } [1] exLocal :=
  ⟨rfl, [9], 9, rfl, by
    intro c hc
    simp only [List.mem_singleton] at hc
    subst hc
    exact ⟨⟨[4], 4, none⟩, by decide +kernel, rfl⟩⟩

/-! ### C79: progress of the synchronisation -/

/-- The heights a call asks blocks for. -/
def Asks (c : Call) (h : Nat) : Prop := ∃ id s n, c = .peerBlocks id s n ∧ s.toNat ≤ h ∧ h < s.toNat + n.toNat

/-- The claim: a round with a peer whose wanted head is above ours asks for a block above our head, `own` being the
height of our head. -/
def AsksForNews (o : Opts) : Prop :=
  ∀ (e : SyncEnv) (synced : Bool) (own : Nat) (headID : Bytes) (head : UInt64), Wanted e headID head →
    e.lib.height.toNat ≤ own → own < head.toNat →
    ∃ c ∈ (requestSyncBlocks o e synced).calls, ∃ h, own < h ∧ Asks c h

/-- C79 where it fails, for every execution: while the last irreversible block is a batch or more behind our head, no round
asks for anything above our head, whatever the peer has. -/
theorem C79_stuck_partial (o : Opts) (e : SyncEnv) (synced : Bool) (own : Nat)
    (h : e.lib.height.toNat + o.batch.toNat ≤ own) :
    ∀ c ∈ (requestSyncBlocks o e synced).calls, ∀ x, Asks c x → x ≤ own := by
  rintro c hc x ⟨id, s, n, rfl, hs, hn⟩
  obtain ⟨head, hw, h1, h2⟩ := (C39_window o e synced id s n).1 hc
  have : n.toNat ≤ o.batch.toNat := by
    rw [h2]
    exact le_trans (Nat.mod_le _ _) (min_le_right _ _)
  omega

/-- C79 refuted for every batch size below `2^63`: a node whose irreversible block is a batch behind its head. -/
theorem C79_progress_refuted (o : Opts) (ho : o.batch.toNat < 2 ^ 63) : ¬ AsksForNews o := by
  intro h
  let head : UInt64 := UInt64.ofNat (o.batch.toNat + 1)
  have hh : head.toNat = o.batch.toNat + 1 := by
    rw [UInt64.toNat_ofNat', Nat.mod_eq_of_lt (by omega)]
  let e : SyncEnv :=
    { lib := ⟨[], 0⟩, peerHead := .ok ([9], head), blocksByID := fun _ => .ok [0], ancestor := fun _ _ => .ok []
      blocks := fun _ _ _ => .ok [], apply := fun _ _ => none }
  have hz : e.lib.height.toNat = 0 := rfl
  obtain ⟨c, hc, x, hx, ha⟩ := h e false o.batch.toNat [9] head
    ⟨rfl, by rw [hh, hz]; omega, rfl, by rw [hz]; omega⟩ (by rw [hz]; omega) (by rw [hh]; omega)
  have := C79_stuck_partial o e false o.batch.toNat (by rw [hz]; omega) c hc x ha
  omega

/-- C79 as far as it holds: if the irreversible block is less than a batch behind our head, a round with a wanted peer asks
for the block right above our head. -/
theorem C79_news_partial (o : Opts) (hb : o.batch.toNat < 2 ^ 32) (e : SyncEnv) (synced : Bool) (own : Nat)
    (headID : Bytes) (head : UInt64) (hw : Wanted e headID head) (h1 : e.lib.height.toNat ≤ own)
    (h2 : own < head.toNat) (h3 : own < e.lib.height.toNat + o.batch.toNat) :
    ∃ c ∈ (requestSyncBlocks o e synced).calls, ∀ x, e.lib.height.toNat < x → x ≤ own + 1 → Asks c x := by
  have hht := head.toNat_lt
  refine ⟨.peerBlocks headID (UInt64.ofNat (e.lib.height.toNat + 1))
    (UInt32.ofNat (min (head.toNat - e.lib.height.toNat) o.batch.toNat)), ?_, ?_⟩
  · refine (C39_window o e synced headID _ _).2 ⟨head, hw, ?_, ?_⟩
    · rw [UInt64.toNat_ofNat', Nat.mod_eq_of_lt (by omega)]
    · rw [UInt32.toNat_ofNat']
  · intro x hx1 hx2
    refine ⟨_, _, _, rfl, ?_, ?_⟩
    · rw [UInt64.toNat_ofNat', Nat.mod_eq_of_lt (by omega)]; omega
    · rw [UInt64.toNat_ofNat', Nat.mod_eq_of_lt (by omega), UInt32.toNat_ofNat', Nat.mod_eq_of_lt (by omega)]
      omega

/-- C79 as far as it holds, many rounds: let the peer's head stay at `H`, let round `i` start with the irreversible height
`lib i` and our head `own i`, let every round apply all blocks it asks for (the window of C39), and let irreversibility
lag at most `K` blocks behind our head with `K` below the batch size. Then `H / (batch - K) + 1` rounds reach the
peer's head. -/
theorem C79_catch_up_partial (batch K H : Nat) (hK : K < batch) (lib own : Nat → Nat)
    (hlag : ∀ i, own i ≤ lib i + K)
    (hround : ∀ i, own i < H → own (i + 1) ≥ lib i + min (H - lib i) batch) (hmono : ∀ i, own i ≤ own (i + 1)) :
    ∀ n, n ≥ H / (batch - K) + 1 → H ≤ own n := by
  have key : ∀ n, H ≤ own n ∨ n * (batch - K) ≤ own n := by
    intro n
    induction n with
    | zero => right; omega
    | succ n ih =>
      by_cases hH : H ≤ own n
      · left; exact le_trans hH (hmono n)
      · have h1 := hround n (by omega)
        have h2 := hlag n
        rcases ih with h | h
        · omega
        · by_cases hm : H - lib n ≤ batch
          · left; rw [min_eq_left hm] at h1; omega
          · right
            rw [min_eq_right (by omega)] at h1
            rw [Nat.add_mul, Nat.one_mul]
            omega
  intro n hn
  rcases key n with h | h
  · exact h
  · have h1 : H < (H / (batch - K) + 1) * (batch - K) := by
      have := Nat.lt_div_mul_add (a := H) (b := batch - K) (by omega)
      rw [Nat.add_mul, Nat.one_mul]; exact this
    have h2 : (H / (batch - K) + 1) * (batch - K) ≤ n * (batch - K) := Nat.mul_le_mul_right _ hn
    omega

/- With the defaults, 500 blocks per round and irreversibility 60 blocks behind: 1000 blocks take at most three rounds. -/
example : 1000 / (500 - 60) + 1 = 3 := by decide
private def exOwn (i : Nat) : Nat := min 1000 (if i = 0 then 0 else 60 + 440 * i)

example : ∀ n ≥ 3, 1000 ≤ exOwn n :=
  C79_catch_up_partial 500 60 1000 (by decide) (fun i => exOwn i - 60) exOwn
    (by intro i; omega)
    (by
      intro i h
      unfold exOwn at h ⊢
      have hi : i < 3 := by
        by_contra hc
        rw [if_neg (by omega)] at h
        omega
      interval_cases i <;> simp)
    (by intro i; unfold exOwn; split <;> split <;> omega)

end KP2P

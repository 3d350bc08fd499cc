import Verif.Proof.PeerConn
/-!
# C37, C39-C42, C66: handshake and synchronisation rounds
-/

namespace KP2P
open KP2P.PeerConn Spec.PeerConn

/-! ### C37: the handshake -/

theorem handshakeRest_none (o : Opts) (e : HsEnv) :
    (handshakeRest o e).2 = none ↔ SameChain e ∧ ∃ head height, e.peerHead = .ok (head, height) ∧
      ∀ i c, o.checkpoints[i]? = some c → OnCheckpoint e head i c := by
  unfold handshakeRest
  constructor
  · intro h
    split at h
    · cases h
    · rename_i mine hm
      split at h
      · cases h
      · rename_i theirs ht
        split at h
        · rename_i heq
          split at h
          · cases h
          · rename_i head height hh
            have h2 := (checkpointLoop_ok e.ancestor head 0 o.checkpoints).1 h
            refine ⟨⟨mine, hm, by rw [ht, heq]⟩, head, height, hh, fun i c hi => ?_⟩
            have := h2 i c hi
            rwa [Nat.zero_add] at this
        · cases h
  · rintro ⟨⟨id, h1, h2⟩, head, height, h3, h4⟩
    simp only [h1, h2, h3, if_true]
    exact (checkpointLoop_ok e.ancestor head 0 o.checkpoints).2 fun j c hj => by
      rw [Nat.zero_add]; exact h4 j c hj

/-- C37. The handshake succeeds iff the version is readable or missing, both chain ids are available and equal, the
peer reports its head, and every checkpoint is an ancestor of that head. -/
theorem C37_admits_exactly (o : Opts) (e : HsEnv) : (handshake o e).err = none ↔ Matching o e := by
  unfold Matching
  constructor
  · intro h
    have hv : VersionOk e := by
      unfold handshake at h
      split at h
      · rename_i v hv; exact Or.inl ⟨v, hv⟩
      · rename_i x hv
        split at h
        · rename_i hm; exact Or.inr ⟨x, hv, hm⟩
        · cases h
    refine ⟨hv, ?_⟩
    rw [handshake_err o e hv] at h
    exact (handshakeRest_none o e).1 h
  · rintro ⟨hv, h⟩
    rw [handshake_err o e hv]
    exact (handshakeRest_none o e).2 h

/-- C37. A failed handshake returns the documented error of the first check that fails, and every such failure is
returned. -/
theorem C37_errors (o : Opts) (e : HsEnv) (x : Err) : (handshake o e).err = some x ↔ Fails o e x := by
  constructor
  · intro h
    by_cases hv : VersionOk e
    · rw [handshake_err o e hv] at h
      unfold handshakeRest at h
      split at h
      · rename_i y hl; cases h; exact .localChain _ hv hl
      · rename_i mine hm
        split at h
        · rename_i y ht; cases h; exact .chain mine hv hm (by rw [ht]; simp)
        · rename_i theirs ht
          split at h
          · rename_i heq
            have hs : SameChain e := ⟨mine, hm, by rw [ht, heq]⟩
            split at h
            · rename_i y hh; cases h; exact .head _ hv hs hh
            · rename_i head height hh
              rcases checkpointLoop_err e.ancestor head 0 o.checkpoints with h1 | h1
              · dsimp only at h; rw [h1] at h; cases h
              · have h2 : ¬ ∀ j c, o.checkpoints[j]? = some c → e.ancestor (0 + j) head c.height = .ok c.id := by
                  intro hc
                  have := (checkpointLoop_ok e.ancestor head 0 o.checkpoints).2 hc
                  rw [h1] at this; cases this
                dsimp only at h; rw [h1] at h; cases h
                have h3 : ∃ j c, o.checkpoints[j]? = some c ∧ ¬ OnCheckpoint e head j c := by
                  refine Classical.byContradiction fun hc => h2 fun j c hj => ?_
                  rw [Nat.zero_add]
                  exact Classical.byContradiction fun hn => hc ⟨j, c, hj, hn⟩
                obtain ⟨j, c, hj, hn⟩ := h3
                exact .checkpoint head height j c hv hs hh hj hn
          · rename_i hne; cases h
            exact .chain mine hv hm (by rw [ht]; intro h; cases h; exact hne rfl)
    · unfold handshake at h
      split at h
      · rename_i v hv'; exact absurd (Or.inl ⟨v, hv'⟩) hv
      · rename_i y hv'
        split at h
        · rename_i hm; exact absurd (Or.inr ⟨y, hv', hm⟩) hv
        · rename_i hm; cases h; exact .version _ hv' (by simpa using hm)
  · intro h
    cases h with
    | version _ hv hm => unfold handshake; rw [hv]; simp [hm]
    | localChain _ hv hl => rw [handshake_err o e hv]; unfold handshakeRest; rw [hl]
    | chain id hv hm hne =>
      rw [handshake_err o e hv]; unfold handshakeRest; rw [hm]
      cases hp : e.peerChainID with
      | error y => rfl
      | ok theirs =>
        have : ¬ id = theirs := by rintro rfl; exact hne hp
        simp [this]
    | head _ hv hs hh =>
      obtain ⟨id, h1, h2⟩ := hs
      rw [handshake_err o e hv]; unfold handshakeRest; simp only [h1, h2, if_true, hh]
    | checkpoint head height i c hv hs hh hi hn =>
      have h1 : (handshake o e).err ≠ none := by
        intro h0
        obtain ⟨_, _, head', height', hh', hall⟩ := (C37_admits_exactly o e).1 h0
        rw [hh] at hh'; cases hh'
        exact hn (hall i c hi)
      obtain ⟨id, g1, g2⟩ := hs
      rw [handshake_err o e hv] at h1 ⊢
      unfold handshakeRest at h1 ⊢
      simp only [g1, g2, if_true, hh] at h1 ⊢
      rcases checkpointLoop_err e.ancestor head 0 o.checkpoints with h3 | h3
      · exact absurd h3 h1
      · exact h3

/-- C37. The remembered version is the one read, or 0.0.0 if it is missing. -/
theorem C37_version (o : Opts) (e : HsEnv) (h : Matching o e) :
    (∀ v, e.version = .ok v → (handshake o e).version = some v) ∧
    ((∀ v, e.version ≠ .ok v) → (handshake o e).version = some ⟨0, 0, 0⟩) := by
  unfold handshake
  rcases h.1 with ⟨v, hv⟩ | ⟨x, hv, hm⟩
  · rw [hv]; exact ⟨fun v' h' => by cases h'; rfl, fun h' => absurd rfl (h' v)⟩
  · rw [hv]; simp only [hm, if_true]; exact ⟨fun v' h' => (by cases h'), fun _ => by trivial⟩

/-- C37. A handshake asks for no blocks and applies none. -/
theorem C37_only_questions (o : Opts) (e : HsEnv) : ∀ x ∈ (handshake o e).calls, Question x := by
  have hr : ∀ x ∈ (handshakeRest o e).1, Question x := by
    intro x hx
    unfold handshakeRest at hx
    split at hx
    · rw [List.mem_singleton.1 hx]; trivial
    · split at hx
      · rcases List.mem_cons.1 hx with rfl | hx
        · trivial
        · rw [List.mem_singleton.1 hx]; trivial
      · split at hx
        · split at hx
          · rcases List.mem_cons.1 hx with rfl | hx
            · trivial
            rcases List.mem_cons.1 hx with rfl | hx
            · trivial
            · rw [List.mem_singleton.1 hx]; trivial
          · rcases List.mem_append.1 hx with hx | hx
            · rcases List.mem_cons.1 hx with rfl | hx
              · trivial
              rcases List.mem_cons.1 hx with rfl | hx
              · trivial
              · rw [List.mem_singleton.1 hx]; trivial
            · obtain ⟨h, rfl⟩ := checkpointLoop_calls _ _ _ _ x hx
              trivial
        · rcases List.mem_cons.1 hx with rfl | hx
          · trivial
          · rw [List.mem_singleton.1 hx]; trivial
  intro x hx
  unfold handshake at hx
  split at hx
  · rcases List.mem_cons.1 hx with rfl | hx
    · trivial
    · exact hr x hx
  · split at hx
    · rcases List.mem_cons.1 hx with rfl | hx
      · trivial
      · exact hr x hx
    · rw [List.mem_singleton.1 hx]; trivial

private def exOpts : Opts := { checkpoints := [⟨5, [5]⟩, ⟨9, [9]⟩], batch := 500, delta := 5 }
private def exHs : HsEnv where
  version := .error (noteS .protocolMissing)
  localChainID := .ok [1, 2]
  peerChainID := .ok [1, 2]
  peerHead := .ok ([77], 100)
  ancestor := fun _ _ h => .ok [h.toUInt8]

/- A peer that matches with two checkpoints, and one that fails at the second checkpoint. -/
example : Matching exOpts exHs := (C37_admits_exactly exOpts exHs).1 (by decide +kernel)
example : (handshake { exOpts with checkpoints := [⟨5, [5]⟩, ⟨9, [8]⟩] } exHs).err =
    some (.sentinel .checkpointMismatch) := by decide +kernel

/-! ### C66: transient failures during the handshake -/

/-- C66, the intended claim: a handshake that fails because a question to the peer timed out is not reported as a
wrong chain or a wrong checkpoint. -/
def TimeoutIsNotMismatch (o : Opts) (e : HsEnv) : Prop :=
  ∀ x, (handshake o e).err = some x → x.is .chainIDMismatch = true ∨ x.is .checkpointMismatch = true →
    (∀ y, e.peerChainID = .error y → y.is .peerRPCTimeout = false) ∧
    (∀ i h y, (∃ hd, e.peerHead = .ok hd ∧ e.ancestor i hd.1 h = .error y) → y.is .peerRPCTimeout = false)

/-- C66 is false: whatever the reason why the peer's chain id could not be read, also a time-out, the peer is reported
as being on another chain. -/
theorem C66_timeout_refuted (o : Opts) (e : HsEnv) (v : VersionOk e) (id : Bytes) (hl : e.localChainID = .ok id)
    (y : Err) (hp : e.peerChainID = .error y) (ht : y.is .peerRPCTimeout = true) :
    (handshake o e).err = some (.sentinel .chainIDMismatch) ∧ ¬ TimeoutIsNotMismatch o e := by
  have h1 : (handshake o e).err = some (.sentinel .chainIDMismatch) :=
    (C37_errors o e _).2 (.chain id v hl (by rw [hp]; simp))
  refine ⟨h1, fun h => ?_⟩
  have := (h _ h1 (Or.inl rfl)).1 y hp
  rw [ht] at this; cases this

/-- C66 as far as it holds: if every question is answered, a mismatch is reported only for a peer that is on another
chain or off a checkpoint, according to its own answers. -/
theorem C66_mismatch_partial (o : Opts) (e : HsEnv) (x : Err) (h : (handshake o e).err = some x)
    (hv : ∀ y, e.version = .error y → y.is .chainIDMismatch = false ∧ y.is .checkpointMismatch = false)
    (hl : ∀ y, e.localChainID = .error y → y.is .chainIDMismatch = false ∧ y.is .checkpointMismatch = false)
    (hh : ∀ y, e.peerHead = .error y → y.is .chainIDMismatch = false ∧ y.is .checkpointMismatch = false)
    (hp : ∃ id, e.peerChainID = .ok id) (ha : ∀ i hd h, ∃ b, e.ancestor i hd h = .ok b) :
    (x.is .chainIDMismatch = true → ∃ a b, e.localChainID = .ok a ∧ e.peerChainID = .ok b ∧ a ≠ b) ∧
    (x.is .checkpointMismatch = true → ∃ head height, e.peerHead = .ok (head, height) ∧
      ∃ (i : Nat) (c : Checkpoint) (b : Bytes), o.checkpoints[i]? = some c ∧
        e.ancestor i head c.height = .ok b ∧ b ≠ c.id) := by
  have hf := (C37_errors o e x).1 h
  cases hf with
  | version _ h1 _ =>
    exact ⟨fun h => absurd ((hv _ h1).1) (by rw [h]; simp), fun h => absurd ((hv _ h1).2) (by rw [h]; simp)⟩
  | localChain _ _ h1 =>
    exact ⟨fun h => absurd ((hl _ h1).1) (by rw [h]; simp), fun h => absurd ((hl _ h1).2) (by rw [h]; simp)⟩
  | head _ _ _ h1 =>
    exact ⟨fun h => absurd ((hh _ h1).1) (by rw [h]; simp), fun h => absurd ((hh _ h1).2) (by rw [h]; simp)⟩
  | chain id _ h1 h2 =>
    obtain ⟨b, hb⟩ := hp
    exact ⟨fun _ => ⟨id, b, h1, hb, by rintro rfl; exact h2 hb⟩, fun h => by simp at h⟩
  | checkpoint head height i c _ _ h1 h2 h3 =>
    obtain ⟨b, hb⟩ := ha i head c.height
    exact ⟨fun h => by simp at h, fun _ => ⟨head, height, h1, i, c, b, h2, hb, by rintro rfl; exact h3 hb⟩⟩

example : (handshake exOpts { exHs with peerChainID := .error (wrapS .peerRPCTimeout .ctxDeadline) }).err =
    some (.sentinel .chainIDMismatch) := by decide +kernel

/-! ### C39: which blocks are requested -/

/-- C39. A round requests blocks iff the peer's chain is wanted; the request names the peer's head, starts right above
our irreversible block, and asks for the smaller of the distance and the batch size (taken modulo 2^32). -/
theorem C39_window (o : Opts) (e : SyncEnv) (synced : Bool) (headID : Bytes) (start : UInt64) (n : UInt32) :
    Call.peerBlocks headID start n ∈ (requestSyncBlocks o e synced).calls ↔
      ∃ head, Wanted e headID head ∧ start.toNat = e.lib.height.toNat + 1 ∧
        n.toNat = min (head.toNat - e.lib.height.toNat) o.batch.toNat % 2 ^ 32 := by
  have hstart : ∀ head : UInt64, e.lib.height.toNat < head.toNat →
      (e.lib.height + 1).toNat = e.lib.height.toNat + 1 := by
    intro head h
    rw [UInt64.toNat_add, UInt64.toNat_one]
    have := head.toNat_lt
    omega
  have hnum : ∀ head : UInt64, e.lib.height.toNat < head.toNat → (toRequest o e.lib.height head).toUInt32.toNat =
      min (head.toNat - e.lib.height.toNat) o.batch.toNat % 2 ^ 32 := by
    intro head h
    rw [UInt64.toNat_toUInt32, toRequest_toNat o _ _ h]
  rcases sync_cases o e synced with ⟨hid, head, pre, hw, hq, hc, _⟩ | ⟨hn, hq, _⟩
  · rw [hc]
    obtain ⟨rest, h1, h2⟩ := fetch_calls o e synced hid head
    constructor
    · intro hm
      rcases List.mem_append.1 hm with hm | hm
      · exact absurd (hq _ hm) (by simp [Question])
      · rw [h1] at hm
        rcases List.mem_cons.1 hm with hm | hm
        · cases hm
          exact ⟨head, hw, hstart head hw.2.1, hnum head hw.2.1⟩
        · obtain ⟨b, hb⟩ := h2 _ hm; cases hb
    · rintro ⟨head', hw', hs, hnn⟩
      have e1 := hw.1; have e2 := hw'.1
      rw [e1] at e2; cases e2
      refine List.mem_append_right _ ?_
      rw [h1]
      have : start = e.lib.height + 1 := UInt64.toNat_inj.1 (by rw [hs, hstart head hw.2.1])
      have : n = (toRequest o e.lib.height head).toUInt32 := UInt32.toNat_inj.1 (by rw [hnn, hnum head hw.2.1])
      subst_vars
      exact List.mem_cons_self ..
  · constructor
    · intro hm; exact absurd (hq _ hm) (by simp [Question])
    · rintro ⟨head, hw, _⟩; exact absurd hw (hn _ _)

/-- C39. With a batch size that fits 32 bits, exactly the smaller of the distance and the batch size is asked for;
with a positive one, at least one block. -/
theorem C39_count (o : Opts) (hb : o.batch.toNat < 2 ^ 32) (e : SyncEnv) (synced : Bool) (headID : Bytes)
    (start : UInt64) (n : UInt32) (h : Call.peerBlocks headID start n ∈ (requestSyncBlocks o e synced).calls) :
    ∃ head, e.peerHead = .ok (headID, head) ∧ n.toNat = min (head.toNat - e.lib.height.toNat) o.batch.toNat ∧
      (0 < o.batch.toNat → 0 < n.toNat) := by
  obtain ⟨head, hw, _, hn⟩ := (C39_window o e synced headID start n).1 h
  refine ⟨head, hw.1, ?_, ?_⟩
  · rw [hn]; exact Nat.mod_eq_of_lt (by omega)
  · intro h0
    have := hw.2.1
    rw [hn, Nat.mod_eq_of_lt (by omega)]
    omega

/-- C39. At most one request per round, and blocks are applied only after it. -/
theorem C39_once (o : Opts) (e : SyncEnv) (synced : Bool) :
    (requestSyncBlocks o e synced).calls.countP (fun | .peerBlocks _ _ _ => true | _ => false) ≤ 1 ∧
    (applied (requestSyncBlocks o e synced).calls ≠ [] → ∃ a s n, Call.peerBlocks a s n ∈ (requestSyncBlocks o e synced).calls) := by
  have hq0 : ∀ l : List Call, (∀ x ∈ l, Question x) →
      l.countP (fun | .peerBlocks _ _ _ => true | _ => false) = 0 ∧ applied l = [] := by
    intro l hl
    refine ⟨List.countP_eq_zero.2 fun x hx => ?_, ?_⟩
    · have := hl x hx
      cases x <;> simp_all [Question]
    · refine List.filterMap_eq_nil_iff.2 fun x hx => ?_
      have := hl x hx
      cases x <;> simp_all [Question]
  rcases sync_cases o e synced with ⟨hid, head, pre, hw, hq, hc, _⟩ | ⟨hn, hq, _⟩
  · rw [hc]
    obtain ⟨rest, h1, h2⟩ := fetch_calls o e synced hid head
    rw [h1]
    constructor
    · rw [List.countP_append, (hq0 pre hq).1, List.countP_cons]
      have : rest.countP (fun | .peerBlocks _ _ _ => true | _ => false) = 0 := by
        refine List.countP_eq_zero.2 fun x hx => ?_
        obtain ⟨b, rfl⟩ := h2 x hx
        simp
      rw [this]; simp
    · intro _
      exact ⟨_, _, _, List.mem_append_right _ (List.mem_cons_self ..)⟩
  · refine ⟨by rw [(hq0 _ hq).1]; omega, fun h => absurd (hq0 _ hq).2 h⟩

private def blk (id : UInt8) (h : UInt64) : RawBlock :=
  { id := some [id], header := some { previous := some [], height := h, timestamp := 0, signer := none } }

private def exSync : SyncEnv where
  lib := ⟨[3], 3⟩
  peerHead := .ok ([9], 9)
  blocksByID := fun _ => .ok [0]
  ancestor := fun _ _ => .ok [3]
  blocks := fun _ _ n => .ok ([blk 4 4, blk 5 5, blk 6 6, blk 7 7].take n.toNat)
  apply := fun i _ => if i = 0 then some (.sentinel .blockIrreversibility) else none

/- A wanted peer: four blocks are requested, all are handed over, the first being irreversible already. -/
example : (requestSyncBlocks { exOpts with batch := 4 } exSync false) =
    ⟨[.peerHead, .localBlocksByID [9], .peerAncestor [9] 3, .peerBlocks [9] 4 4, .applyBlock (blk 4 4),
      .applyBlock (blk 5 5), .applyBlock (blk 6 6), .applyBlock (blk 7 7)], .ok, true⟩ := by decide +kernel

/-! ### C40: applying the received blocks -/

/-- C40. Blocks of a reply are handed over in the order received. Either all are handed over and every result was
success or "already irreversible"; or handing over stops at the first other failure, which is the round's result with
its class; or it stops at the first block without header (C41). -/
theorem C40_in_order (o : Opts) (e : SyncEnv) (synced : Bool) (headID : Bytes) (start : UInt64) (n : UInt32)
    (h : Call.peerBlocks headID start n ∈ (requestSyncBlocks o e synced).calls) (bs : List RawBlock)
    (hb : e.blocks headID start n = .ok bs) :
    ∃ k, applied (requestSyncBlocks o e synced).calls = bs.take k ∧
      ((k = bs.length ∧ (∀ j b, bs[j]? = some b → b.header.isSome ∧ Passes (e.apply j b)) ∧
          ((requestSyncBlocks o e synced).out = .ok ∨ (bs = [] ∧ (requestSyncBlocks o e synced).out = .panic))) ∨
       (∃ j b x, k = j + 1 ∧ bs[j]? = some b ∧ b.header.isSome ∧ e.apply j b = some x ∧ ¬ Passes (some x) ∧
          (requestSyncBlocks o e synced).out = .err (reported x) ∧
          ∀ j' b', j' < j → bs[j']? = some b' → b'.header.isSome ∧ Passes (e.apply j' b')) ∨
       (∃ j b, k = j + 1 ∧ bs[j]? = some b ∧ b.header = none ∧ (requestSyncBlocks o e synced).out = .panic ∧
          ∀ j' b', j' < j → bs[j']? = some b' → b'.header.isSome ∧ Passes (e.apply j' b'))) := by
  rcases sync_cases o e synced with ⟨hid, head, pre, hw, hq, hc, ho, hs⟩ | ⟨hn, hq, _⟩
  · obtain ⟨rest, h1, h2⟩ := fetch_calls o e synced hid head
    have heq : headID = hid ∧ start = e.lib.height + 1 ∧ n = (toRequest o e.lib.height head).toUInt32 := by
      rw [hc] at h
      rcases List.mem_append.1 h with h | h
      · exact absurd (hq _ h) (by simp [Question])
      · rw [h1] at h
        rcases List.mem_cons.1 h with h | h
        · cases h; exact ⟨rfl, rfl, rfl⟩
        · obtain ⟨b, hb⟩ := h2 _ h; cases hb
    obtain ⟨rfl, rfl, rfl⟩ := heq
    obtain ⟨ha, hf⟩ := fetch_blocks o e synced headID head bs hb
    have hpre : applied pre = [] := by
      refine List.filterMap_eq_nil_iff.2 fun x hx => ?_
      have := hq x hx
      cases x <;> simp_all [Question]
    rw [hc, ho, applied_append, hpre, ha, List.nil_append]
    obtain ⟨k, hk, hcase⟩ := applyLoop_cases e.apply 0 bs
    refine ⟨k, hk, ?_⟩
    simp only [Nat.zero_add] at hcase
    rcases hcase with ⟨g1, g2, g3⟩ | ⟨j, b, x, g1, g2, g3, g4, g5, g6, g7⟩ | ⟨j, b, g1, g2, g3, g4, g5⟩
    · refine Or.inl ⟨g2, g3, ?_⟩
      rcases hf with ⟨f1, _⟩ | ⟨_, ⟨b, hd, _, _, f2, _⟩ | ⟨f2, _, f3⟩⟩
      · exact absurd g1 f1
      · exact Or.inl f2
      · rcases f3 with f3 | ⟨b, f3, f4⟩
        · exact Or.inr ⟨f3, f2⟩
        · have hm := List.mem_of_getLast? f3
          obtain ⟨j, hj⟩ := List.getElem?_of_mem hm
          have := (g3 j b hj).1
          rw [f4] at this; cases this
    · refine Or.inr (Or.inl ⟨j, b, x, g1, g2, g3, g4, g5, ?_, g7⟩)
      rcases hf with ⟨f1, f2, _⟩ | ⟨f1, _⟩
      · rw [f2, g6]
      · rw [f1] at g6; cases g6
    · refine Or.inr (Or.inr ⟨j, b, g1, g2, g3, ?_, g5⟩)
      rcases hf with ⟨f1, f2, _⟩ | ⟨f1, _⟩
      · rw [f2, g4]
      · rw [f1] at g4; cases g4
  · exact absurd (hq _ h) (by simp [Question])

/-- C40. The class under which a failure is reported: local time-outs and fork bombs keep their class, everything else
is a block-application failure. -/
theorem C40_class (x : Err) :
    (x.is .localRPCTimeout = true → reported x = x) ∧ (x.is .forkBomb = true → reported x = x) ∧
    (x.is .localRPCTimeout = false → x.is .forkBomb = false → (reported x).is .blockApplication = true) := by
  refine ⟨fun h => ?_, fun h => ?_, fun h1 h2 => ?_⟩
  · unfold reported; simp [h]
  · unfold reported; simp [h]
  · unfold reported; simp [h1, h2]

private def exFail : SyncEnv :=
  { exSync with apply := fun i _ => if i = 1 then some (.sentinel .unknownPreviousBlock) else none }

/- A batch that stops at the second block. -/
example : (requestSyncBlocks exOpts exFail true).out =
    .err (wrapS .blockApplication (.sentinel .unknownPreviousBlock)) ∧
    applied (requestSyncBlocks exOpts exFail true).calls = [blk 4 4, blk 5 5] := by decide +kernel

/-! ### C41: crashes -/

/-- C41, the intended claim: no round crashes the process. -/
def NeverPanics (o : Opts) : Prop := ∀ e synced, (requestSyncBlocks o e synced).out ≠ .panic

/-- C41, how it fails: a peer whose first block has no header crashes the node, whatever the options, our state, and
the rest of its reply. -/
theorem C41_header_crash_partial (o : Opts) (e : SyncEnv) (synced : Bool) (headID : Bytes) (head : UInt64)
    (hw : Wanted e headID head) (b : RawBlock) (bs : List RawBlock) (hb : b.header = none)
    (hr : ∀ s n, e.blocks headID s n = .ok (b :: bs)) :
    (requestSyncBlocks o e synced).out = .panic := by
  have h : (requestSyncBlocks o e synced).out = .panic := by
    rcases sync_cases o e synced with ⟨hid, head', pre, hw', _, _, ho, _⟩ | ⟨hn, _⟩
    · have e1 := hw.1; have e2 := hw'.1
      rw [e1] at e2; cases e2
      rw [ho]
      obtain ⟨_, hf⟩ := fetch_blocks o e synced headID head (b :: bs) (hr _ _)
      have hp : (applyLoop e.apply 0 (b :: bs)).2 = .panic := by
        unfold applyLoop; rw [hb]
      rcases hf with ⟨_, f2, _⟩ | ⟨f1, _⟩
      · rw [f2, hp]
      · rw [hp] at f1; cases f1
    · exact absurd hw (hn _ _)
  exact h

/-- C41 as far as it holds: a round crashes only if the peer's reply is empty or contains a block without header; an
empty reply passes the length check of `GetBlocks` only if the number asked for is 0, which needs a batch size that is
0 modulo 2^32 or at least 2^32. -/
theorem C41_no_crash_partial (o : Opts) (hb0 : 0 < o.batch.toNat) (hb : o.batch.toNat < 2 ^ 32) (e : SyncEnv)
    (synced : Bool)
    (hlen : ∀ a s n bs, e.blocks a s n = .ok bs → bs.length % 2 ^ 32 = n.toNat)
    (hhdr : ∀ a s n bs, e.blocks a s n = .ok bs → ∀ b ∈ bs, b.header.isSome) :
    (requestSyncBlocks o e synced).out ≠ .panic := by
  intro hp
  rcases sync_cases o e synced with ⟨hid, head, pre, hw, hq, hc, ho, _⟩ | ⟨_, _, h | ⟨x, h, _⟩⟩
  · rw [ho] at hp
    cases hr : e.blocks hid (e.lib.height + 1) (toRequest o e.lib.height head).toUInt32 with
    | error x => rw [fetch_error o e synced hid head x hr] at hp; cases hp
    | ok bs =>
      have hl := hlen _ _ _ _ hr
      have hh := hhdr _ _ _ _ hr
      have hne : bs ≠ [] := by
        rintro rfl
        rw [UInt64.toNat_toUInt32, toRequest_toNat o _ _ hw.2.1] at hl
        have := hw.2.1
        rw [Nat.mod_eq_of_lt (a := min _ _) (by omega)] at hl
        simp at hl
        omega
      obtain ⟨_, hf⟩ := fetch_blocks o e synced hid head bs hr
      rcases hf with ⟨_, f2, _⟩ | ⟨f1, ⟨b, hd, _, _, f2, _⟩ | ⟨_, _, f3 | ⟨b, f3, f4⟩⟩⟩
      · rw [f2] at hp
        obtain ⟨k, _, hcase⟩ := applyLoop_cases e.apply 0 bs
        rcases hcase with ⟨g1, _⟩ | ⟨_, _, _, _, _, _, _, _, g6, _⟩ | ⟨j, b, _, g2, g3, _⟩
        · rw [g1] at hp; cases hp
        · rw [g6] at hp; cases hp
        · have := hh b (List.mem_of_getElem? g2)
          rw [g3] at this; cases this
      · rw [f2] at hp; cases hp
      · exact hne f3
      · have := hh b (List.mem_of_getLast? f3)
        rw [f4] at this; cases this
  · rw [h.1] at hp; cases hp
  · rw [h] at hp; cases hp

private def evil : SyncEnv := { exSync with blocks := fun _ _ _ => .ok [⟨some [1], none, [], []⟩] }

theorem evil_wanted : Wanted evil [9] 9 := ⟨rfl, by decide +kernel, rfl, fun _ => rfl⟩

/-- C41 is false under every configuration. -/
theorem C41_no_crash_refuted (o : Opts) : ¬ NeverPanics o := fun h =>
  h evil false (C41_header_crash_partial o evil false [9] 9 evil_wanted _ [] rfl fun _ _ => rfl)

example : (requestSyncBlocks Opts.default evil false).out = .panic := by decide +kernel

/- The defaults satisfy the premises of the positive statement. -/
example : 0 < Opts.default.batch.toNat ∧ Opts.default.batch.toNat < 2 ^ 32 := by decide +kernel

/-! ### C42: the synced status -/

/-- C42. If a round fetched blocks and ended well, the session is synced iff the last received block is less than
`delta` below the peer's head; a last block above the peer's head counts as 2^64 minus the excess below it. -/
theorem C42_after_fetch (o : Opts) (e : SyncEnv) (synced : Bool) (headID : Bytes) (head : UInt64)
    (hw : Wanted e headID head) (hok : (requestSyncBlocks o e synced).out = .ok) :
    ∃ s n bs b hd, Call.peerBlocks headID s n ∈ (requestSyncBlocks o e synced).calls ∧
      e.blocks headID s n = .ok bs ∧ bs.getLast? = some b ∧ b.header = some hd ∧
      ((requestSyncBlocks o e synced).synced = true ↔
        (if hd.height.toNat ≤ head.toNat then head.toNat - hd.height.toNat else 2 ^ 64 - (hd.height.toNat - head.toNat)) <
          o.delta.toNat) := by
  rcases sync_cases o e synced with ⟨hid, head', pre, hw', hq, hc, ho, hs⟩ | ⟨hn, _⟩
  · have e1 := hw.1; have e2 := hw'.1
    rw [e1] at e2; cases e2
    obtain ⟨rest, h1, h2⟩ := fetch_calls o e synced headID head
    rw [ho] at hok
    cases hr : e.blocks headID (e.lib.height + 1) (toRequest o e.lib.height head).toUInt32 with
    | error x => rw [fetch_error o e synced headID head x hr] at hok; cases hok
    | ok bs =>
      obtain ⟨_, hf⟩ := fetch_blocks o e synced headID head bs hr
      rcases hf with ⟨f1, f2, _⟩ | ⟨f1, ⟨b, hd, g1, g2, _, g4⟩ | ⟨g1, _⟩⟩
      · rw [f2] at hok; exact absurd hok f1
      · refine ⟨_, _, bs, b, hd, ?_, hr, g1, g2, ?_⟩
        · rw [hc, h1]; exact List.mem_append_right _ (List.mem_cons_self ..)
        · rw [hs, g4, decide_eq_true_iff, UInt64.lt_iff_toNat_lt]
          have hlt1 := hd.height.toNat_lt
          have hlt2 := head.toNat_lt
          have : (head - hd.height).toNat = if hd.height.toNat ≤ head.toNat then head.toNat - hd.height.toNat
              else 2 ^ 64 - (hd.height.toNat - head.toNat) := by
            rw [UInt64.toNat_sub]
            split <;> omega
          rw [this]
      · rw [g1] at hok; cases hok
  · exact absurd hw (hn _ _)

/-- C42. A round that fetched nothing and ended well leaves the session synced. -/
theorem C42_nothing_to_do (o : Opts) (e : SyncEnv) (synced : Bool) (hn : ∀ a b, ¬ Wanted e a b)
    (hok : (requestSyncBlocks o e synced).out = .ok) : (requestSyncBlocks o e synced).synced = true := by
  rcases sync_cases o e synced with ⟨hid, head', pre, hw', _⟩ | ⟨_, _, h | ⟨x, h, _⟩⟩
  · exact absurd hw' (hn _ _)
  · exact h.2
  · rw [h] at hok; cases hok

/-- C42. A round that fails does not change the status. -/
theorem C42_failed (o : Opts) (e : SyncEnv) (synced : Bool) (x : Err)
    (h : (requestSyncBlocks o e synced).out = .err x) : (requestSyncBlocks o e synced).synced = synced := by
  rcases sync_cases o e synced with ⟨hid, head, pre, hw, hq, hc, ho, hs⟩ | ⟨_, _, g | ⟨y, _, g⟩⟩
  · rw [hs]
    rw [ho] at h
    cases hr : e.blocks hid (e.lib.height + 1) (toRequest o e.lib.height head).toUInt32 with
    | error y => rw [fetch_error o e synced hid head y hr]
    | ok bs =>
      obtain ⟨_, hf⟩ := fetch_blocks o e synced hid head bs hr
      rcases hf with ⟨_, _, f3⟩ | ⟨f1, ⟨b, hd, g1, g2, g3, g4⟩ | ⟨g1, g2, _⟩⟩
      · exact f3
      · rw [g3] at h; cases h
      · exact g2
  · rw [g.1] at h; cases h
  · exact g

/- Both sides of the boundary, and a last block above the head. -/
example : (requestSyncBlocks { exOpts with batch := 4, delta := 3 } exSync false).synced = true ∧
    (requestSyncBlocks { exOpts with batch := 4, delta := 2 } exSync true).synced = false ∧
    (requestSyncBlocks { exOpts with batch := 1 } { exSync with blocks := fun _ _ _ => .ok [blk 1 99] } true).synced =
      false := by decide +kernel

end KP2P

import Verif.Spec.PeerConn
/-!
# Lemmas about handshakes and synchronisation rounds
-/

namespace KP2P

/-- An error belongs to at most one class. -/
theorem Err.is_unique {e : Err} {a b : Sentinel} (ha : e.is a = true) (hb : e.is b = true) : a = b := by
  induction e with
  | sentinel s =>
    simp only [Err.is_sentinel, decide_eq_true_eq] at ha hb
    exact ha.symm.trans hb
  | wrap i s ih _ => exact ih ha hb
  | note i ih => exact ih ha hb
  | _ => cases ha

namespace PeerConn
open Spec.PeerConn

theorem checkpointLoop_ok (anc : Nat → Bytes → UInt64 → Except Err Bytes) (head : Bytes) (i : Nat)
    (cs : List Checkpoint) :
    (checkpointLoop anc head i cs).2 = none ↔ ∀ j c, cs[j]? = some c → anc (i + j) head c.height = .ok c.id := by
  induction cs generalizing i with
  | nil => simp [checkpointLoop]
  | cons c cs ih =>
    have hsplit : (∀ j c', (c :: cs)[j]? = some c' → anc (i + j) head c'.height = .ok c'.id) ↔
        anc i head c.height = .ok c.id ∧ ∀ j c', cs[j]? = some c' → anc (i + 1 + j) head c'.height = .ok c'.id := by
      constructor
      · intro h
        refine ⟨h 0 c rfl, fun j c' hj => ?_⟩
        have := h (j + 1) c' (by rw [List.getElem?_cons_succ]; exact hj)
        rw [show i + 1 + j = i + (j + 1) by omega]; exact this
      · rintro ⟨h0, h1⟩ j c' hj
        cases j with
        | zero => simp only [List.getElem?_cons_zero, Option.some.injEq] at hj; subst hj; exact h0
        | succ j =>
          rw [List.getElem?_cons_succ] at hj
          have := h1 j c' hj
          rw [show i + (j + 1) = i + 1 + j by omega]; exact this
    rw [hsplit]
    unfold checkpointLoop
    cases ha : anc i head c.height with
    | error x => simp
    | ok b =>
      by_cases hb : b = c.id
      · subst hb; simp only [if_true, true_and]; exact ih (i + 1)
      · simp [hb]

theorem checkpointLoop_err (anc : Nat → Bytes → UInt64 → Except Err Bytes) (head : Bytes) (i : Nat)
    (cs : List Checkpoint) :
    (checkpointLoop anc head i cs).2 = none ∨
      (checkpointLoop anc head i cs).2 = some (.sentinel .checkpointMismatch) := by
  induction cs generalizing i with
  | nil => exact Or.inl rfl
  | cons c cs ih =>
    unfold checkpointLoop
    split
    · exact Or.inr rfl
    · split
      · exact ih (i + 1)
      · exact Or.inr rfl

theorem checkpointLoop_calls (anc : Nat → Bytes → UInt64 → Except Err Bytes) (head : Bytes) (i : Nat)
    (cs : List Checkpoint) : ∀ x ∈ (checkpointLoop anc head i cs).1, ∃ h, x = .peerAncestor head h := by
  induction cs generalizing i with
  | nil => simp [checkpointLoop]
  | cons c cs ih =>
    unfold checkpointLoop
    split
    · simp
    · split
      · intro x hx
        rcases List.mem_cons.1 hx with rfl | hx
        · exact ⟨_, rfl⟩
        · exact ih (i + 1) x hx
      · simp

theorem handshake_err (o : Opts) (e : HsEnv) (h : VersionOk e) : (handshake o e).err = (handshakeRest o e).2 := by
  unfold handshake
  rcases h with ⟨v, h⟩ | ⟨x, h, hm⟩
  · rw [h]
  · rw [h]; simp only [hm, if_true]

theorem applied_append (a b : List Call) : applied (a ++ b) = applied a ++ applied b := List.filterMap_append

theorem applied_cons_block (b : RawBlock) (cs : List Call) : applied (.applyBlock b :: cs) = b :: applied cs := rfl

/-- The loop either gets through, stops at a failure, or panics at a block without header. -/
theorem applyLoop_cases (app : Nat → RawBlock → Option Err) (i : Nat) (bs : List RawBlock) :
    (∃ k, applied (applyLoop app i bs).1 = bs.take k ∧
      (((applyLoop app i bs).2 = .ok ∧ k = bs.length ∧
          ∀ j b, bs[j]? = some b → b.header.isSome ∧ Passes (app (i + j) b)) ∨
       (∃ j b e, k = j + 1 ∧ bs[j]? = some b ∧ b.header.isSome ∧ app (i + j) b = some e ∧ ¬ Passes (some e) ∧
          (applyLoop app i bs).2 = .err (reported e) ∧
          ∀ j' b', j' < j → bs[j']? = some b' → b'.header.isSome ∧ Passes (app (i + j') b')) ∨
       (∃ j b, k = j + 1 ∧ bs[j]? = some b ∧ b.header = none ∧ (applyLoop app i bs).2 = .panic ∧
          ∀ j' b', j' < j → bs[j']? = some b' → b'.header.isSome ∧ Passes (app (i + j') b')))) := by
  induction bs generalizing i with
  | nil => exact ⟨0, rfl, Or.inl ⟨rfl, rfl, by simp⟩⟩
  | cons b bs ih =>
    have hgo : ∀ hd, b.header = some hd → Passes (app i b) →
        applyLoop app i (b :: bs) = (.applyBlock b :: (applyLoop app (i + 1) bs).1, (applyLoop app (i + 1) bs).2) := by
      intro hd hh hp
      conv => lhs; unfold applyLoop
      rw [hh]
      rcases hp with hp | ⟨e, hp, hx⟩
      · rw [hp]
      · rw [hp]
        have h1 : e.is .localRPCTimeout = false := by
          cases h : e.is .localRPCTimeout with
          | false => rfl
          | true => exact absurd (Err.is_unique h hx) (by decide)
        have h2 : e.is .forkBomb = false := by
          cases h : e.is .forkBomb with
          | false => rfl
          | true => exact absurd (Err.is_unique h hx) (by decide)
        simp [h1, h2, hx]
    cases hh : b.header with
    | none =>
      refine ⟨1, ?_, Or.inr (Or.inr ⟨0, b, rfl, rfl, hh, ?_, ?_⟩)⟩
      · unfold applyLoop; rw [hh]; rfl
      · unfold applyLoop; rw [hh]
      · intro j' _ hj; omega
    | some hd =>
      by_cases hp : Passes (app i b)
      · have hE := hgo hd hh hp
        obtain ⟨k, h1, h2⟩ := ih (i + 1)
        rw [hE]
        have hfirst : ∀ j' b', j' = 0 → (b :: bs)[j']? = some b' → b'.header.isSome ∧ Passes (app (i + j') b') := by
          intro j' b' e h; subst e
          simp only [List.getElem?_cons_zero, Option.some.injEq] at h
          subst h; exact ⟨by rw [hh]; rfl, hp⟩
        refine ⟨k + 1, by rw [applied_cons_block, h1]; rfl, ?_⟩
        rcases h2 with ⟨h2, h3, h4⟩ | ⟨j, b', e, h2, h3, h4, h5, h6, h7, h8⟩ | ⟨j, b', h2, h3, h4, h5, h6⟩
        · refine Or.inl ⟨h2, by rw [h3]; rfl, ?_⟩
          intro j b' hj
          cases j with
          | zero => exact hfirst 0 b' rfl hj
          | succ j =>
            rw [List.getElem?_cons_succ] at hj
            have := h4 j b' hj
            rw [show i + (j + 1) = i + 1 + j by omega]; exact this
        · refine Or.inr (Or.inl ⟨j + 1, b', e, by rw [h2], by rw [List.getElem?_cons_succ]; exact h3, h4, ?_, h6, h7, ?_⟩)
          · rw [show i + (j + 1) = i + 1 + j by omega]; exact h5
          · intro j' b'' hlt hj
            cases j' with
            | zero => exact hfirst 0 b'' rfl hj
            | succ j' =>
              rw [List.getElem?_cons_succ] at hj
              have := h8 j' b'' (by omega) hj
              rw [show i + (j' + 1) = i + 1 + j' by omega]; exact this
        · refine Or.inr (Or.inr ⟨j + 1, b', by rw [h2], by rw [List.getElem?_cons_succ]; exact h3, h4, h5, ?_⟩)
          intro j' b'' hlt hj
          cases j' with
          | zero => exact hfirst 0 b'' rfl hj
          | succ j' =>
            rw [List.getElem?_cons_succ] at hj
            have := h6 j' b'' (by omega) hj
            rw [show i + (j' + 1) = i + 1 + j' by omega]; exact this
      · cases ha : app i b with
        | none => exact absurd (Or.inl ha) hp
        | some e =>
          have hne : e.is .blockIrreversibility = false := by
            cases h : e.is .blockIrreversibility with
            | false => rfl
            | true => exact absurd (Or.inr ⟨e, ha, h⟩) hp
          have hstop : applyLoop app i (b :: bs) = ([.applyBlock b], .err (reported e)) := by
            unfold applyLoop reported
            rw [hh, ha]
            cases h1 : e.is .localRPCTimeout <;> cases h2 : e.is .forkBomb <;> simp [hne, h1, h2]
          rw [hstop]
          refine ⟨1, rfl, Or.inr (Or.inl ⟨0, b, e, rfl, rfl, by rw [hh]; rfl, ha, ?_, rfl, ?_⟩)⟩
          · rw [← ha]; exact hp
          · intro j' _ hj; omega

theorem applyLoop_calls (app : Nat → RawBlock → Option Err) (i : Nat) (bs : List RawBlock) :
    ∀ x ∈ (applyLoop app i bs).1, ∃ b ∈ bs, x = .applyBlock b := by
  induction bs generalizing i with
  | nil => simp [applyLoop]
  | cons b bs ih =>
    have hr : ∀ x ∈ (applyLoop app (i + 1) bs).1, ∃ b' ∈ b :: bs, x = .applyBlock b' := fun x hx => by
      obtain ⟨b', h1, h2⟩ := ih (i + 1) x hx
      exact ⟨b', List.mem_cons_of_mem _ h1, h2⟩
    have h0 : ∀ x ∈ [Call.applyBlock b], ∃ b' ∈ b :: bs, x = .applyBlock b' := fun x hx =>
      ⟨b, List.mem_cons_self .., List.mem_singleton.1 hx⟩
    have h1 : ∀ x ∈ Call.applyBlock b :: (applyLoop app (i + 1) bs).1, ∃ b' ∈ b :: bs, x = .applyBlock b' := fun x hx => by
      rcases List.mem_cons.1 hx with rfl | hx
      · exact ⟨b, List.mem_cons_self .., rfl⟩
      · exact hr x hx
    unfold applyLoop
    split
    · exact h0
    · split
      · exact h1
      · split
        · exact h0
        · split
          · exact h0
          · split
            · exact h1
            · exact h0

/-- A call that only asks something. -/
def Question : Call → Prop
  | .peerBlocks _ _ _ => False
  | .applyBlock _ => False
  | _ => True

/-- A round fetches exactly if the peer's chain is wanted; otherwise it only asks. -/
theorem sync_cases (o : Opts) (e : SyncEnv) (synced : Bool) :
    (∃ headID head pre, Wanted e headID head ∧ (∀ x ∈ pre, Question x) ∧
      (requestSyncBlocks o e synced).calls = pre ++ (fetch o e synced headID head).calls ∧
      (requestSyncBlocks o e synced).out = (fetch o e synced headID head).out ∧
      (requestSyncBlocks o e synced).synced = (fetch o e synced headID head).synced) ∨
    ((∀ headID head, ¬ Wanted e headID head) ∧ (∀ x ∈ (requestSyncBlocks o e synced).calls, Question x) ∧
      (((requestSyncBlocks o e synced).out = .ok ∧ (requestSyncBlocks o e synced).synced = true) ∨
       (∃ x, (requestSyncBlocks o e synced).out = .err x ∧ (requestSyncBlocks o e synced).synced = synced))) := by
  have q : ∀ (l : List Call), (l.all fun | .peerBlocks _ _ _ => false | .applyBlock _ => false | _ => true) = true →
      ∀ x ∈ l, Question x := by
    intro l hl x hx
    have := List.all_eq_true.1 hl x hx
    cases x <;> first | trivial | cases this
  cases hh : e.peerHead with
  | error x =>
    refine Or.inr ⟨fun a b h => (by have := h.1; rw [hh] at this; cases this), ?_, Or.inr ⟨x, ?_⟩⟩
    · unfold requestSyncBlocks; rw [hh]; exact q _ rfl
    · unfold requestSyncBlocks; rw [hh]; exact ⟨rfl, rfl⟩
  | ok p =>
    obtain ⟨headID, head⟩ := p
    have hW : ∀ a b, Wanted e a b → a = headID ∧ b = head := by
      intro a b h; have := h.1; rw [hh] at this; cases this; exact ⟨rfl, rfl⟩
    by_cases hle : head ≤ e.lib.height
    · have hE : requestSyncBlocks o e synced = ⟨[.peerHead], .ok, true⟩ := by
        unfold requestSyncBlocks; rw [hh]; simp only [hle, if_true]
      refine Or.inr ⟨?_, by rw [hE]; exact q _ rfl, Or.inl (by rw [hE]; exact ⟨rfl, rfl⟩)⟩
      intro a b h
      obtain ⟨rfl, rfl⟩ := hW a b h
      have h1 := h.2.1
      have h2 := UInt64.le_iff_toNat_le.1 hle
      omega
    · have hlt : e.lib.height.toNat < head.toNat := by
        have : ¬ head.toNat ≤ e.lib.height.toNat := fun h => hle (UInt64.le_iff_toNat_le.2 h)
        omega
      cases hb : e.blocksByID headID with
      | error x =>
        have hE : requestSyncBlocks o e synced = ⟨[.peerHead, .localBlocksByID headID], .err x, synced⟩ := by
          unfold requestSyncBlocks; rw [hh]; simp only [hle, if_false, hb]
        refine Or.inr ⟨?_, by rw [hE]; exact q _ rfl, Or.inr ⟨x, by rw [hE]; exact ⟨rfl, rfl⟩⟩⟩
        intro a b h
        obtain ⟨rfl, rfl⟩ := hW a b h
        have := h.2.2.1; rw [hb] at this; cases this
      | ok items =>
        by_cases hi : ∃ h, items = [h]
        · obtain ⟨h, rfl⟩ := hi
          by_cases h0 : h = 0
          · subst h0
            by_cases hg : e.lib.height > 0
            · have hg' : 0 < e.lib.height.toNat := UInt64.lt_iff_toNat_lt.1 hg
              cases ha : e.ancestor headID e.lib.height with
              | error x =>
                have hE : requestSyncBlocks o e synced =
                    ⟨[.peerHead, .localBlocksByID headID, .peerAncestor headID e.lib.height], .err x, synced⟩ := by
                  unfold requestSyncBlocks; rw [hh]; simp only [hle, if_false, hb, ha, hg, if_true]; simp
                refine Or.inr ⟨?_, by rw [hE]; exact q _ rfl, Or.inr ⟨x, by rw [hE]; exact ⟨rfl, rfl⟩⟩⟩
                intro a b h
                obtain ⟨rfl, rfl⟩ := hW a b h
                have := h.2.2.2 hg'; rw [ha] at this; cases this
              | ok a =>
                by_cases hid : a = e.lib.id
                · refine Or.inl ⟨headID, head, [.peerHead, .localBlocksByID headID, .peerAncestor headID e.lib.height],
                    ⟨hh, hlt, hb, fun _ => by rw [ha, hid]⟩, q _ rfl, ?_⟩
                  have hE : requestSyncBlocks o e synced = { fetch o e synced headID head with
                      calls := [.peerHead, .localBlocksByID headID, .peerAncestor headID e.lib.height] ++
                        (fetch o e synced headID head).calls } := by
                    unfold requestSyncBlocks; rw [hh]; simp only [hle, if_false, hb, ha, hg, if_true, hid]; simp
                  rw [hE]; exact ⟨rfl, rfl, rfl⟩
                · have hE : requestSyncBlocks o e synced =
                      ⟨[.peerHead, .localBlocksByID headID, .peerAncestor headID e.lib.height],
                        .err (.sentinel .chainNotConnected), synced⟩ := by
                    unfold requestSyncBlocks; rw [hh]; simp only [hle, if_false, hb, ha, hg, if_true, hid]; simp
                  refine Or.inr ⟨?_, by rw [hE]; exact q _ rfl, Or.inr ⟨_, by rw [hE]; exact ⟨rfl, rfl⟩⟩⟩
                  intro a' b h
                  obtain ⟨rfl, rfl⟩ := hW a' b h
                  have := h.2.2.2 hg'; rw [ha] at this; cases this; exact hid rfl
            · have hg' : ¬ 0 < e.lib.height.toNat := fun h => hg (UInt64.lt_iff_toNat_lt.2 h)
              refine Or.inl ⟨headID, head, [.peerHead, .localBlocksByID headID],
                ⟨hh, hlt, hb, fun h => absurd h hg'⟩, q _ rfl, ?_⟩
              have hE : requestSyncBlocks o e synced = { fetch o e synced headID head with
                  calls := [.peerHead, .localBlocksByID headID] ++ (fetch o e synced headID head).calls } := by
                unfold requestSyncBlocks; rw [hh]; simp only [hle, if_false, hb, hg]; simp
              rw [hE]; exact ⟨rfl, rfl, rfl⟩
          · have hE : requestSyncBlocks o e synced = ⟨[.peerHead, .localBlocksByID headID], .ok, true⟩ := by
              unfold requestSyncBlocks; rw [hh]; simp only [hle, if_false, hb]; simp [h0]
            refine Or.inr ⟨?_, by rw [hE]; exact q _ rfl, Or.inl (by rw [hE]; exact ⟨rfl, rfl⟩)⟩
            intro a b hw
            obtain ⟨rfl, rfl⟩ := hW a b hw
            have := hw.2.2.1; rw [hb] at this; cases this; exact h0 rfl
        · have hE : requestSyncBlocks o e synced =
              ⟨[.peerHead, .localBlocksByID headID], .err (noteS .localRPC), synced⟩ := by
            unfold requestSyncBlocks; rw [hh]; simp only [hle, if_false, hb]
            split
            · rename_i h; exact absurd ⟨_, rfl⟩ hi
            · rfl
          refine Or.inr ⟨?_, by rw [hE]; exact q _ rfl, Or.inr ⟨_, by rw [hE]; exact ⟨rfl, rfl⟩⟩⟩
          intro a b h
          obtain ⟨rfl, rfl⟩ := hW a b h
          have := h.2.2.1; rw [hb] at this; cases this; exact hi ⟨_, rfl⟩

/-- The number of blocks asked for, as a number. -/
theorem toRequest_toNat (o : Opts) (lib head : UInt64) (h : lib.toNat < head.toNat) :
    (toRequest o lib head).toNat = min (head.toNat - lib.toNat) o.batch.toNat := by
  have hle : lib ≤ head := UInt64.le_iff_toNat_le.2 (by omega)
  have hs : (head - lib).toNat = head.toNat - lib.toNat := UInt64.toNat_sub_of_le head lib hle
  unfold toRequest
  split
  · rename_i hgt
    have := UInt64.lt_iff_toNat_lt.1 hgt
    omega
  · rename_i hgt
    have : ¬ o.batch.toNat < (head - lib).toNat := fun h => hgt (UInt64.lt_iff_toNat_lt.2 h)
    omega

/-- What `fetch` does after a reply with blocks. -/
theorem fetch_blocks (o : Opts) (e : SyncEnv) (synced : Bool) (headID : Bytes) (head : UInt64) (bs : List RawBlock)
    (h : e.blocks headID (e.lib.height + 1) (toRequest o e.lib.height head).toUInt32 = .ok bs) :
    applied (fetch o e synced headID head).calls = applied (applyLoop e.apply 0 bs).1 ∧
    (((applyLoop e.apply 0 bs).2 ≠ .ok ∧ (fetch o e synced headID head).out = (applyLoop e.apply 0 bs).2 ∧
        (fetch o e synced headID head).synced = synced) ∨
     ((applyLoop e.apply 0 bs).2 = .ok ∧ ((∃ b hd, bs.getLast? = some b ∧ b.header = some hd ∧
          (fetch o e synced headID head).out = .ok ∧
          (fetch o e synced headID head).synced = decide (head - hd.height < o.delta)) ∨
        ((fetch o e synced headID head).out = .panic ∧ (fetch o e synced headID head).synced = synced ∧
          (bs = [] ∨ ∃ b, bs.getLast? = some b ∧ b.header = none))))) := by
  unfold fetch
  simp only [h]
  cases hr : (applyLoop e.apply 0 bs).2 with
  | ok =>
    simp only
    cases hl : bs.getLast? with
    | none =>
      refine ⟨rfl, Or.inr ⟨by first | exact hr | trivial, Or.inr ⟨rfl, rfl, Or.inl ?_⟩⟩⟩
      exact List.getLast?_eq_none_iff.1 hl
    | some b =>
      simp only
      cases hb : b.header with
      | none => exact ⟨rfl, Or.inr ⟨by first | exact hr | trivial, Or.inr ⟨rfl, rfl, Or.inr ⟨b, rfl, hb⟩⟩⟩⟩
      | some hd => exact ⟨rfl, Or.inr ⟨by first | exact hr | trivial, Or.inl ⟨b, hd, rfl, hb, rfl, rfl⟩⟩⟩
  | err x => exact ⟨rfl, Or.inl ⟨by simp, rfl, rfl⟩⟩
  | panic => exact ⟨rfl, Or.inl ⟨by simp, rfl, rfl⟩⟩

theorem fetch_error (o : Opts) (e : SyncEnv) (synced : Bool) (headID : Bytes) (head : UInt64) (x : Err)
    (h : e.blocks headID (e.lib.height + 1) (toRequest o e.lib.height head).toUInt32 = .error x) :
    fetch o e synced headID head = ⟨[.peerBlocks headID (e.lib.height + 1)
      (toRequest o e.lib.height head).toUInt32], .err x, synced⟩ := by
  unfold fetch
  simp only [h]

/-- The calls of `fetch`: one request, then blocks. -/
theorem fetch_calls (o : Opts) (e : SyncEnv) (synced : Bool) (headID : Bytes) (head : UInt64) :
    ∃ rest, (fetch o e synced headID head).calls =
        .peerBlocks headID (e.lib.height + 1) (toRequest o e.lib.height head).toUInt32 :: rest ∧
      ∀ x ∈ rest, ∃ b, x = .applyBlock b := by
  cases h : e.blocks headID (e.lib.height + 1) (toRequest o e.lib.height head).toUInt32 with
  | error x => rw [fetch_error o e synced headID head x h]; exact ⟨[], rfl, by simp⟩
  | ok bs =>
    refine ⟨(applyLoop e.apply 0 bs).1, ?_, fun x hx => ?_⟩
    · unfold fetch
      simp only [h]
      cases hr : (applyLoop e.apply 0 bs).2 with
      | ok =>
        simp only
        cases hl : bs.getLast? with
        | none => rfl
        | some b => simp only; cases hb : b.header <;> rfl
      | err x => rfl
      | panic => rfl
    · obtain ⟨b, _, h2⟩ := applyLoop_calls e.apply 0 bs x hx
      exact ⟨b, h2⟩

end PeerConn
end KP2P

import Verif.Proof.ApplicatorBasic
import Mathlib.Data.List.Perm.Subperm
/-!
# Applicator: invariants of all reachable states
-/

namespace KP2P
namespace App

/-! ### Shapes of the handlers -/

/-- State of `handleBlockStatus` after line 284. -/
def afterStatus (s : AState) (b : Blk) (e : Option Err) : AState :=
  { s with pending := s.pending.del b.id, log := .status b e :: s.log }

/-- The wake-ups of a verdict. -/
def wakes (o : AppOpts) (s : AState) (b : Blk) (e : Option Err) : List (Blk × Bool) :=
  if e = none then kids o s b.id else []

theorem handleStatus_cases (o : AppOpts) (s : AState) (b : Blk) (e : Option Err) :
    (errIs e .blockState = true ∧ handleStatus o s b e = trySend (afterStatus s b e) b false) ∨
    (errIs e .blockState = false ∧ errIs e .unknownPreviousBlock = true ∧ handleStatus o s b e = afterStatus s b e) ∨
    (errIs e .blockState = false ∧ errIs e .unknownPreviousBlock = false ∧
      handleStatus o s b e =
        removeBlockEntry { afterStatus s b e with tries := s.tries ++ wakes o s b e } b.id e) := by
  unfold handleStatus
  by_cases h1 : errIs e .blockState = true
  · left; exact ⟨h1, by simp [h1]; rfl⟩
  · right
    have h1' : errIs e .blockState = false := by simpa using h1
    by_cases h2 : errIs e .unknownPreviousBlock = true
    · left
      have hne : e ≠ none := by rintro rfl; cases h2
      refine ⟨h1', h2, ?_⟩
      simp [h1', h2, hne]; rfl
    · right
      have h2' : errIs e .unknownPreviousBlock = false := by simpa using h2
      refine ⟨h1', h2', ?_⟩
      by_cases hn : e = none
      · subst hn
        simp only [h1', Bool.false_eq_true, if_false, true_or, if_true, checkChildren_eq, wakes]
        rfl
      · simp only [h1', h2', Bool.false_eq_true, if_false, or_true, if_true, hn, wakes, List.append_nil]
        rfl

theorem handleForkHeads_eq (o : AppOpts) (s : AState) (heads : List Bytes) (lib : UInt64) :
    handleForkHeads o s heads lib =
      { (heights s.lib lib).foldl evictHeight
          { s with lib := lib, watchdog := s.watchdog.purge lib, tries := s.tries ++ heads.flatMap (kids o s) } with
        hung := lib.toNat = 18446744073709551615 } := by
  unfold handleForkHeads
  simp only [heads_eq]
  rfl

theorem onlyAnswers_forkHeads (o : AppOpts) (s : AState) (heads : List Bytes) (lib : UInt64) :
    OnlyAnswers s.log (handleForkHeads o s heads lib).log := by
  rw [handleForkHeads_eq]
  exact onlyAnswers_evict (heights s.lib lib)
    { s with lib := lib, watchdog := s.watchdog.purge lib, tries := s.tries ++ heads.flatMap (kids o s) }

theorem handleBroadcast_eq (o : AppOpts) (s : AState) (id : Bytes) (height : UInt64) :
    handleBroadcast o s id height =
      { s with highest := if height > s.highest then height else s.highest, tries := s.tries ++ kids o s id } := by
  unfold handleBroadcast
  simp only [checkChildren_eq]
  split <;> rfl

/-- The outcome of `addBlockEntry`: the tables are updated, then the block is deferred or scheduled. -/
theorem addBlockEntry_cases (s : AState) (r : Nat) (b : Blk) :
    ((b.height > s.highest + 1 ∨ s.pending.has b.previous = true) ∧
      addBlockEntry s r b = { addTables s r b with log := .deferred b :: s.log }) ∨
    (¬ b.height > s.highest + 1 ∧ s.pending.has b.previous = false ∧
      addBlockEntry s r b = { addTables s r b with tries := s.tries ++ [(b, false)] }) := by
  have e1 : (addTables s r b).highest = s.highest := by unfold addTables; split <;> rfl
  have e2 : (addTables s r b).pending = s.pending := by unfold addTables; split <;> rfl
  have e3 : (addTables s r b).log = s.log := by unfold addTables; split <;> rfl
  have e4 : (addTables s r b).tries = s.tries := by unfold addTables; split <;> rfl
  unfold addBlockEntry
  simp only [e1, e2, e3]
  by_cases h1 : b.height > s.highest + 1
  · left; exact ⟨Or.inl h1, by simp [h1]⟩
  · by_cases h2 : s.pending.has b.previous = true
    · left; exact ⟨Or.inr h2, by simp [h1, h2]⟩
    · right; exact ⟨h1, by simpa using h2, by simp [h1, h2, trySend, e1, e2, e3, e4]⟩

theorem addTables_frame (s : AState) (r : Nat) (b : Blk) :
    ∃ m p h, addTables s r b = { s with byId := m, byPrev := p, byHeight := h } := by
  unfold addTables
  split
  · exact ⟨_, _, _, rfl⟩
  · exact ⟨_, _, _, rfl⟩

theorem get_addTables (s : AState) (r : Nat) (b : Blk) (k : Bytes) :
    (addTables s r b).byId.get k =
      if k = b.id then some (match s.byId.get b.id with
        | some old => { old with chans := old.chans ++ [r] }
        | none => { block := b, chans := [r] }) else s.byId.get k := by
  unfold addTables
  split <;> simp [*]

theorem held_addTables (s : AState) (r : Nat) (b : Blk) :
    ((addTables s r b).byId.entries.flatMap (fun x => x.2.chans)).Perm
      (r :: s.byId.entries.flatMap (fun x => x.2.chans)) := by
  unfold addTables
  cases hg : s.byId.get b.id with
  | none =>
    simp only [GoMap.set]
    rw [GoMap.del_of_not_has _ _ (by rw [GoMap.has_eq, hg]; rfl)]
    simp
  | some old =>
    simp only [GoMap.set, List.flatMap_cons]
    have := (s.byId.entries_perm_of_get _ _ hg).flatMap_right (fun x => x.2.chans)
    simp only [List.flatMap_cons] at this
    refine List.Perm.trans ?_ (this.symm.cons r)
    rw [List.append_assoc]
    exact List.perm_middle

theorem len_addTables (s : AState) (r : Nat) (b : Blk) : (addTables s r b).byId.len ≤ s.byId.len + 1 := by
  unfold addTables
  split <;> (simp only [GoMap.len_set]; split <;> omega)

theorem len_le_of_get {K V : Type} [DecidableEq K] (m m' : GoMap K V)
    (h : ∀ k v, m'.get k = some v → ∃ v', m.get k = some v') : m'.len ≤ m.len := by
  rw [GoMap.len_eq_keys, GoMap.len_eq_keys]
  refine (List.subperm_of_subset m'.keys_nodup ?_).length_le
  intro k hk
  obtain ⟨v, hv⟩ := (GoMap.mem_keys' _ _).1 hk
  exact (GoMap.mem_keys' _ _).2 (h k v hv)

/-! ### The main invariant -/

/-- Every call, wherever its channel is. -/
def tokens (s : AState) : List Nat := queuedCalls s ++ held s ++ answered s.log ++ refusedCalls s.log

structure Inv (o : AppOpts) (s : AState) : Prop where
  idx : Idx s
  above : ∀ id e, s.byId.get id = some e → s.lib < e.block.height
  size : s.byId.len ≤ o.maxPendingBlocks.toNat
  pend : ∀ id, s.pending.has id = true ↔ id ∈ s.apps.map (·.blk.id)
  nodup : (s.apps.map (·.blk.id)).Nodup
  tokens : (tokens s).Perm (List.range s.nextReq)

/-- The invariant only reads these parts. -/
theorem Inv.of_eq {o : AppOpts} {s s' : AState} (h : Inv o s) (h1 : s'.byId = s.byId) (h2 : s'.byPrev = s.byPrev)
    (h3 : s'.byHeight = s.byHeight) (h4 : s'.lib = s.lib) (h5 : s'.pending = s.pending)
    (h6 : s'.apps.map (·.blk.id) = s.apps.map (·.blk.id)) (h7 : s'.newQ = s.newQ)
    (h8 : answered s'.log = answered s.log) (h9 : refusedCalls s'.log = refusedCalls s.log)
    (h10 : s'.nextReq = s.nextReq) : Inv o s' := by
  refine ⟨h.idx.of_eq h1 h2 h3, ?_, ?_, ?_, ?_, ?_⟩
  · rw [h1, h4]; exact h.above
  · rw [h1]; exact h.size
  · rw [h5, h6]; exact h.pend
  · rw [h6]; exact h.nodup
  · unfold App.tokens queuedCalls held
    rw [h1, h7, h8, h9, h10]; exact h.tokens

theorem map_set_same {l : List BApp} {i : Nat} {b : Blk} {st st' : Stage} (h : l[i]? = some ⟨b, st⟩) :
    (l.set i ⟨b, st'⟩).map (·.blk.id) = l.map (·.blk.id) := by
  rw [List.map_set]
  apply List.ext_getElem?
  intro j
  rw [List.getElem?_set]
  split
  · rename_i hij
    subst hij
    have : i < l.length := (List.getElem?_eq_some_iff.1 h).1
    simp [this]
    have := (List.getElem?_eq_some_iff.1 h).2
    rw [this]
  · rfl

theorem perm_eraseIdx {α : Type} {l : List α} {i : Nat} {x : α} (h : l[i]? = some x) :
    l.Perm (x :: l.eraseIdx i) := by
  obtain ⟨hi, hx⟩ := List.getElem?_eq_some_iff.1 h
  rw [← hx]
  exact (List.getElem_cons_eraseIdx_perm hi).symm

theorem answered_map (rs : List Nat) (e : Option Err) (log : List Obs) :
    answered (rs.map (fun r => Obs.answer r e) ++ log) = rs ++ answered log := by
  unfold answered
  rw [List.filterMap_append, List.filterMap_map]
  congr 1
  induction rs with
  | nil => rfl
  | cons r rs ih => simp

theorem refused_map (rs : List Nat) (e : Option Err) (log : List Obs) :
    refusedCalls (rs.map (fun r => Obs.answer r e) ++ log) = refusedCalls log := by
  induction rs with
  | nil => rfl
  | cons r rs ih => exact ih

/-- Removal preserves the invariant (except that the caller supplies the bound of the heights). -/
theorem Inv.removed {o : AppOpts} {s s' : AState} {e : Option Err} (h : Inv o s) (hr : OnlyRemoved e s s')
    (hi : Idx s') (hg : ∀ k v, s'.byId.get k = some v → s.byId.get k = some v) : Inv o s' := by
  obtain ⟨rs, hl, hp⟩ := hr.log
  refine ⟨hi, ?_, ?_, ?_, ?_, ?_⟩
  · intro id x hx; rw [hr.lib]; exact h.above id x (hg _ _ hx)
  · exact (len_le_of_get _ _ fun k v hv => ⟨v, hg k v hv⟩).trans h.size
  · rw [hr.pending, hr.apps]; exact h.pend
  · rw [hr.apps]; exact h.nodup
  · refine List.Perm.trans ?_ (hr.nextReq ▸ h.tokens)
    unfold App.tokens queuedCalls held
    rw [hr.newQ, hl, answered_map, refused_map]
    refine List.Perm.append_right _ ?_
    rw [← List.append_assoc, List.append_assoc (s.newQ.map Prod.fst)]
    refine List.Perm.append_right _ ?_
    exact List.Perm.append_left _ hp

theorem inv_init (o : AppOpts) (hi lib : UInt64) (now : Int) : Inv o (init hi lib now) := by
  refine ⟨⟨?_, ⟨?_, ?_⟩, ⟨?_, ?_⟩⟩, ?_, ?_, ?_, ?_, ?_⟩ <;> simp [init, tokens, queuedCalls, held, answered, refusedCalls]
  intro a b h; cases h

theorem lt_of_admission {o : AppOpts} {s : AState} {b : Blk} (h : admission o s b = none) :
    s.byId.len + 1 ≤ o.maxPendingBlocks.toNat ∧ s.lib < b.height := by
  unfold admission at h
  split at h
  · cases h
  split at h
  · cases h
  split at h
  · cases h
  rename_i h1 h2 h3
  refine ⟨?_, UInt64.not_le.1 h3⟩
  have hle : o.maxPendingBlocks.toBitVec.toInt ≤ (o.maxPendingBlocks.toNat : Int) := by
    rw [BitVec.toInt_eq_toNat_cond]
    have : o.maxPendingBlocks.toBitVec.toNat = o.maxPendingBlocks.toNat := rfl
    split <;> omega
  omega

theorem inv_step (o : AppOpts) (s : AState) (l : Label) (s' : AState) (h : Inv o s) (hst : step o s l = some s') :
    Inv o s' := by
  cases l with
  | applyBlock b =>
    rcases step_applyBlock hst with ⟨e, _, rfl⟩ | ⟨_, rfl⟩
    · refine ⟨h.idx.of_eq rfl rfl rfl, h.above, h.size, h.pend, h.nodup, ?_⟩
      change (s.newQ.map Prod.fst ++ held s ++ answered s.log ++ (s.nextReq :: refusedCalls s.log)).Perm
        (List.range (s.nextReq + 1))
      rw [List.range_succ]
      refine List.perm_middle.trans ?_
      exact (h.tokens.cons _).trans (List.perm_append_singleton _ _).symm
    · refine ⟨h.idx.of_eq rfl rfl rfl, h.above, h.size, h.pend, h.nodup, ?_⟩
      change ((s.newQ ++ [(s.nextReq, b)]).map Prod.fst ++ held s ++ answered s.log ++ refusedCalls s.log).Perm
        (List.range (s.nextReq + 1))
      rw [List.range_succ, List.map_append, List.map_singleton]
      refine List.Perm.trans ?_ (List.perm_append_singleton _ _).symm
      refine List.Perm.trans ?_ (h.tokens.cons _)
      unfold tokens queuedCalls
      simp only [List.append_assoc, List.singleton_append]
      exact List.perm_middle
  | callerReturns r =>
    obtain ⟨_, e, _, rfl⟩ := step_callerReturns hst
    exact h.of_eq rfl rfl rfl rfl rfl rfl rfl rfl rfl rfl
  | callerTimesOut r =>
    obtain ⟨_, rfl⟩ := step_callerTimesOut hst
    exact h.of_eq rfl rfl rfl rfl rfl rfl rfl rfl rfl rfl
  | newBlock i =>
    obtain ⟨_, r, b, hq, rfl⟩ := step_newBlock hst
    have hq' := (perm_eraseIdx hq).map Prod.fst
    simp only [List.map_cons] at hq'
    have ht : (r :: tokens { s with newQ := s.newQ.eraseIdx i }).Perm (List.range s.nextReq) := by
      refine List.Perm.trans ?_ h.tokens
      unfold tokens queuedCalls
      rw [← List.cons_append, ← List.cons_append, ← List.cons_append]
      exact List.Perm.append_right _ (List.Perm.append_right _ (List.Perm.append_right _ hq'.symm))
    unfold handleNewBlock
    cases ha : admission o { s with newQ := s.newQ.eraseIdx i } b with
    | some e =>
      simp only
      refine ⟨h.idx.of_eq rfl rfl rfl, h.above, h.size, h.pend, h.nodup, ?_⟩
      have : tokens (answerAll { s with newQ := s.newQ.eraseIdx i } (some e) [r]) =
          (s.newQ.eraseIdx i).map Prod.fst ++ held s ++ (r :: answered s.log) ++ refusedCalls s.log := rfl
      rw [this]
      refine List.Perm.trans ?_ ht
      unfold tokens queuedCalls
      rw [← List.cons_append]
      exact List.Perm.append_right _ List.perm_middle
    | none =>
      simp only
      obtain ⟨hl, hh⟩ := lt_of_admission ha
      set s0 : AState := { s with newQ := s.newQ.eraseIdx i } with hs0
      obtain ⟨m, p, hh', hf⟩ := addTables_frame s0 r b
      have base : ∀ s', s'.byId = (addTables s0 r b).byId → s'.byPrev = (addTables s0 r b).byPrev →
          s'.byHeight = (addTables s0 r b).byHeight → s'.lib = s.lib → s'.pending = s.pending → s'.apps = s.apps →
          s'.newQ = s0.newQ → answered s'.log = answered s.log → refusedCalls s'.log = refusedCalls s.log →
          s'.nextReq = s.nextReq → Inv o s' := by
        intro s' e1 e2 e3 e4 e5 e6 e7 e8 e9 e10
        refine ⟨(idx_addTables (h.idx.of_eq rfl rfl rfl : Idx s0) r b).of_eq e1 e2 e3, ?_, ?_, ?_, ?_, ?_⟩
        · intro id x hx
          rw [e1, get_addTables] at hx
          rw [e4]
          split at hx
          · simp only [Option.some.injEq] at hx
            cases hg : s0.byId.get b.id with
            | none => rw [hg] at hx; simp only at hx; subst hx; exact hh
            | some old => rw [hg] at hx; simp only at hx; subst hx; exact h.above b.id old hg
          · exact h.above _ _ hx
        · rw [e1]; exact (len_addTables s0 r b).trans hl
        · rw [e5, e6]; exact h.pend
        · rw [e6]; exact h.nodup
        · rw [e10]
          refine List.Perm.trans ?_ ht
          unfold App.tokens queuedCalls held
          rw [e1, e7, e8, e9]
          have := held_addTables s0 r b
          refine List.Perm.trans (List.Perm.append_right _ (List.Perm.append_right _ (List.Perm.append_left _ this))) ?_
          rw [← List.cons_append, ← List.cons_append]
          exact List.Perm.append_right _ (List.Perm.append_right _ List.perm_middle)
      rcases addBlockEntry_cases s0 r b with ⟨_, he⟩ | ⟨_, _, he⟩
      · rw [he]
        refine base _ rfl rfl rfl ?_ ?_ ?_ ?_ rfl rfl ?_ <;> rw [hf]
      · rw [he]
        refine base _ rfl rfl rfl ?_ ?_ ?_ ?_ ?_ ?_ ?_ <;> rw [hf]
  | forkHeads heads lib =>
    obtain ⟨_, rfl⟩ := step_forkHeads hst
    rw [handleForkHeads_eq]
    set s0 : AState := { s with
      lib := lib, watchdog := s.watchdog.purge lib, tries := s.tries ++ heads.flatMap (kids o s) } with hs0
    have hi0 : Idx s0 := h.idx.of_eq rfl rfl rfl
    obtain ⟨h1, h2, h3⟩ := evict_spec (heights s.lib lib) s0 hi0
    obtain ⟨rs, hl, hp⟩ := h2.log
    have hsub : ∀ k v, ((heights s.lib lib).foldl evictHeight s0).byId.get k = some v →
        s.byId.get k = some v ∧ lib < v.block.height := by
      intro k v hv
      rw [h3] at hv
      cases hk : s0.byId.get k with
      | none => rw [hk] at hv; cases hv
      | some x =>
        rw [hk] at hv
        simp only [Option.bind_some] at hv
        split at hv
        · cases hv
        · rename_i hn
          simp only [Option.some.injEq] at hv
          subst hv
          refine ⟨rfl, ?_⟩
          have ha := h.above k x hk
          rw [mem_heights] at hn
          rw [UInt64.lt_iff_toNat_lt] at ha ⊢
          have hx := x.block.height.toNat_lt
          have : (s.lib + 1).toNat ≤ s.lib.toNat + 1 := by
            rw [UInt64.toNat_add]; exact Nat.mod_le _ _
          omega
    have hInv : Inv o ((heights s.lib lib).foldl evictHeight s0) := by
      refine ⟨h1, ?_, ?_, ?_, ?_, ?_⟩
      · intro id x hx; rw [h2.lib]; exact (hsub _ _ hx).2
      · exact (len_le_of_get _ _ fun k v hv => ⟨v, (hsub k v hv).1⟩).trans h.size
      · rw [h2.pending, h2.apps]; exact h.pend
      · rw [h2.apps]; exact h.nodup
      · refine List.Perm.trans ?_ (h2.nextReq ▸ h.tokens)
        unfold App.tokens queuedCalls held
        rw [h2.newQ, hl, answered_map, refused_map]
        refine List.Perm.append_right _ ?_
        rw [← List.append_assoc, List.append_assoc (s0.newQ.map Prod.fst)]
        refine List.Perm.append_right _ ?_
        exact List.Perm.append_left _ hp
    exact hInv.of_eq rfl rfl rfl rfl rfl rfl rfl rfl rfl rfl
  | broadcast id height =>
    obtain ⟨_, rfl⟩ := step_broadcast hst
    rw [handleBroadcast_eq]
    exact h.of_eq rfl rfl rfl rfl rfl rfl rfl rfl rfl rfl
  | tryBlock i =>
    obtain ⟨_, b, f, _, rfl⟩ := step_tryBlock hst
    unfold handleTry
    split
    · split
      · exact h.of_eq rfl rfl rfl rfl rfl rfl rfl rfl rfl rfl
      · exact h.of_eq rfl rfl rfl rfl rfl rfl rfl rfl rfl rfl
    · rename_i hp
      have hbid : (beginApp o s.now b).blk.id = b.id := by unfold beginApp; simp only; split <;> rfl
      refine ⟨h.idx.of_eq rfl rfl rfl, h.above, h.size, ?_, ?_, ?_⟩
      · intro id
        simp only [GoMap.has_set, List.map_append, List.map_singleton, List.mem_append, List.mem_singleton,
          hbid, Bool.or_eq_true, decide_eq_true_eq]
        rw [h.pend, or_comm]
      · simp only [List.map_append, List.map_singleton, hbid]
        rw [List.nodup_append]
        refine ⟨h.nodup, by simp, ?_⟩
        intro x hx y hy hxy
        simp only [List.mem_singleton] at hy
        subst hy; subst hxy
        exact hp ((h.pend _).2 hx)
      · exact h.tokens
  | status i =>
    obtain ⟨_, b, e, ha, rfl⟩ := step_status hst
    have hpm := (perm_eraseIdx ha).map (fun a : BApp => a.blk.id)
    simp only [List.map_cons] at hpm
    have hnd := hpm.nodup_iff.1 h.nodup
    rw [List.nodup_cons] at hnd
    set s0 : AState := { s with apps := s.apps.eraseIdx i } with hs0
    have h0 : Inv o (afterStatus s0 b e) := by
      refine ⟨h.idx.of_eq rfl rfl rfl, h.above, h.size, ?_, hnd.2, h.tokens⟩
      intro id
      simp only [afterStatus, GoMap.has_del, Bool.and_eq_true, Bool.not_eq_true', decide_eq_false_iff_not]
      rw [show s0.pending = s.pending from rfl, h.pend, hpm.mem_iff, List.mem_cons]
      constructor
      · rintro ⟨hne, rfl | hm⟩
        · exact absurd rfl hne
        · exact hm
      · intro hm
        refine ⟨?_, Or.inr hm⟩
        rintro rfl
        exact hnd.1 hm
    rcases handleStatus_cases o s0 b e with ⟨_, hs⟩ | ⟨_, _, hs⟩ | ⟨_, _, hs⟩
    · rw [hs]; exact h0.of_eq rfl rfl rfl rfl rfl rfl rfl rfl rfl rfl
    · rw [hs]; exact h0
    · rw [hs]
      have h0' : Inv o { afterStatus s0 b e with tries := s0.tries ++ wakes o s0 b e } :=
        h0.of_eq rfl rfl rfl rfl rfl rfl rfl rfl rfl rfl
      refine h0'.removed (onlyRemoved_remove _ _ _) (idx_removeBlockEntry h0'.idx _ _) ?_
      intro k v hv
      rw [get_remove] at hv
      split at hv
      · cases hv
      · exact hv
  | delayDone i =>
    obtain ⟨b, t, t', ha, _, rfl⟩ := step_delayDone hst
    exact h.of_eq rfl rfl rfl rfl rfl (map_set_same ha) rfl rfl rfl rfl
  | delayTimeout i =>
    obtain ⟨b, t, t', ha, _, rfl⟩ := step_delayTimeout hst
    exact h.of_eq rfl rfl rfl rfl rfl (map_set_same ha) rfl rfl rfl rfl
  | work i =>
    obtain ⟨b, ha, ⟨_, rfl⟩ | ⟨_, rfl⟩⟩ := step_work hst
    · exact h.of_eq rfl rfl rfl rfl rfl (map_set_same ha) rfl rfl rfl rfl
    · exact h.of_eq rfl rfl rfl rfl rfl (map_set_same ha) rfl rfl rfl rfl
  | rpcReturn i e =>
    obtain ⟨b, ha, rfl⟩ := step_rpcReturn hst
    exact h.of_eq rfl rfl rfl rfl rfl (map_set_same ha) rfl rfl rfl rfl
  | retryDue i =>
    obtain ⟨t, b, _, _, rfl⟩ := step_retryDue hst
    exact h.of_eq rfl rfl rfl rfl rfl rfl rfl rfl rfl rfl
  | tick d =>
    rw [step_tick hst]
    exact h.of_eq rfl rfl rfl rfl rfl rfl rfl rfl rfl rfl

theorem inv_reachable {o : AppOpts} {s : AState} (h : Reachable o s) : Inv o s :=
  reachable_induction (inv_init o) (inv_step o) h

end App
end KP2P

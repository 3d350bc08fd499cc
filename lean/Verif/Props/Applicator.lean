import Verif.Proof.ApplicatorSched
/-!
# C08 – C15, C22, C59: the block applicator, safety
-/

namespace KP2P
open App

/-! ## Example blocks and runs -/

def exO : AppOpts := {}

/-- Block 1 on top of the head (height 10). -/
def exP : Blk := ⟨[1], [0], 11, 0, [], []⟩
/-- Its child. -/
def exK : Blk := ⟨[2], [1], 12, 0, [], []⟩
/-- A block far ahead. -/
def exFar : Blk := ⟨[3], [9], 15, 0, [], []⟩

def exS0 : AState := App.init 10 5 0

/-- Three requests; the parent is in the hands of the chain, the two others wait. -/
def exRun : List Label :=
  [.applyBlock exP, .applyBlock exK, .applyBlock exFar, .newBlock 0, .newBlock 0, .newBlock 0, .tryBlock 0, .work 0]

def exS1 : AState := (App.run exO exS0 exRun).getD exS0

theorem exS1_reachable : App.Reachable exO exS1 := ⟨10, 5, 0, exRun, by decide +kernel⟩

/-! ## C08 -/

/-- C08: every request is in exactly one place, exactly once. -/
theorem C08_exactly_once {o : AppOpts} {s : AState} (h : Reachable o s) (r : Nat) (b : Blk) (hc : Obs.call r b ∈ s.log) :
    (queuedCalls s).count r + (held s).count r + (answered s.log).count r + (refusedCalls s.log).count r = 1 := by
  have hlt := (prov_reachable h).callLt r b hc
  have hp := (inv_reachable h).tokens.count_eq r
  rw [List.count_eq_one_of_mem List.nodup_range (List.mem_range.2 hlt)] at hp
  simpa only [tokens, List.count_append] using hp

/-- C08: nothing is queued, held, answered or refused that was not requested. -/
theorem C08_only_requests {o : AppOpts} {s : AState} (h : Reachable o s) (r : Nat)
    (hr : r ∈ queuedCalls s ∨ r ∈ held s ∨ r ∈ answered s.log ∨ r ∈ refusedCalls s.log) :
    ∃ b, Obs.call r b ∈ s.log := by
  have hp := prov_reachable h
  rcases hr with hr | hr | hr | hr
  · obtain ⟨⟨r', b⟩, hx, rfl⟩ := List.mem_map.1 hr
    exact ⟨b, hp.newQ _ hx⟩
  · obtain ⟨⟨k, x⟩, hx, hr⟩ := List.mem_flatMap.1 hr
    obtain ⟨b, hb, _⟩ := hp.chans k x r ((GoMap.get_eq_some_iff _ _ _).2 hx) hr
    exact ⟨b, hb⟩
  · obtain ⟨x, hx, hr⟩ := List.mem_filterMap.1 hr
    cases x <;> simp only [reduceCtorEq, Option.some.injEq] at hr
    subst hr
    obtain ⟨b, hb, _⟩ := hp.good _ hx
    exact ⟨b, hb⟩
  · obtain ⟨x, hx, hr⟩ := List.mem_filterMap.1 hr
    cases x <;> simp only [reduceCtorEq, Option.some.injEq] at hr
    subst hr
    obtain ⟨b, _, hb, _⟩ := hp.good _ hx
    exact ⟨b, hb⟩

/-- C08: a request that is held is held by the waiting block of its own id, and by one block only. -/
theorem C08_held_by_one {o : AppOpts} {s : AState} (h : Reachable o s) (id id' : Bytes) (x x' : BEntry) (r : Nat)
    (hx : s.byId.get id = some x) (hx' : s.byId.get id' = some x') (hr : r ∈ x.chans) (hr' : r ∈ x'.chans) :
    id = id' ∧ x.chans.count r = 1 ∧ ∃ b, Obs.call r b ∈ s.log ∧ b.id = id := by
  have hp := prov_reachable h
  obtain ⟨b, hb, rfl⟩ := hp.chans id x r hx hr
  obtain ⟨b', hb', rfl⟩ := hp.chans id' x' r hx' hr'
  have := hp.callInj r b b' hb hb'
  refine ⟨by rw [this], ?_, b, hb, rfl⟩
  have h1 := C08_exactly_once h r b hb
  have hpm := GoMap.entries_perm_of_get s.byId b.id x hx
  have : (held s).count r = (x.chans ++ (s.byId.del b.id).entries.flatMap fun y => y.2.chans).count r := by
    unfold held
    rw [(hpm.flatMap_right _).count_eq]
    rfl
  rw [List.count_append] at this
  have hpos := List.count_pos_iff.2 hr
  omega

/-- C08: a caller is waiting, has returned once, or was refused at once. -/
theorem C08_caller_returns_once {o : AppOpts} {s : AState} (h : Reachable o s) (r : Nat) (b : Blk)
    (hc : Obs.call r b ∈ s.log) :
    s.waiting.count r + (returnedCalls s.log).count r + (refusedCalls s.log).count r = 1 := by
  have hlt := (prov_reachable h).callLt r b hc
  have hp := (callers_reachable h).count_eq r
  rw [List.count_eq_one_of_mem List.nodup_range (List.mem_range.2 hlt)] at hp
  simpa only [List.count_append] using hp

theorem answerOf_eq {log : List Obs} {r : Nat} {e : Option Err} (hm : Obs.answer r e ∈ log)
    (hc : (answered log).count r ≤ 1) : answerOf log r = some e := by
  induction log with
  | nil => cases hm
  | cons x l ih =>
    rcases List.mem_cons.1 hm with rfl | hm'
    · simp [answerOf]
    · have hin : r ∈ answered l := List.mem_filterMap.2 ⟨.answer r e, hm', rfl⟩
      have hpos := List.count_pos_iff.2 hin
      match x, hc with
      | .answer r' e', hc =>
        have hc' : (r' :: answered l).count r ≤ 1 := hc
        rw [List.count_cons] at hc'
        by_cases hr : r' = r
        · exfalso
          rw [if_pos (by simp [hr])] at hc'
          omega
        · rw [if_neg (by simpa using hr)] at hc'
          have := ih hm' hc'
          simpa [answerOf, hr] using this
      | .call _ _, hc => exact ih hm' hc
      | .refused _ _, hc => exact ih hm' hc
      | .returned _ _, hc => exact ih hm' hc
      | .deferred _, hc => exact ih hm' hc
      | .start _, hc => exact ih hm' hc
      | .submit _, hc => exact ih hm' hc
      | .verdict _ _, hc => exact ih hm' hc
      | .delayTimeout _, hc => exact ih hm' hc
      | .status _ _, hc => exact ih hm' hc

/-- C08: an answer can be delivered to its caller as long as the caller waits, and it is that answer. -/
theorem C08_answer_delivered {o : AppOpts} {s : AState} (h : Reachable o s) (r : Nat) (e : Option Err)
    (hw : r ∈ s.waiting) (ha : Obs.answer r e ∈ s.log) :
    step o s (.callerReturns r) = some { s with waiting := s.waiting.erase r, log := .returned r e :: s.log } := by
  obtain ⟨b, hb, _⟩ := (prov_reachable h).good _ ha
  have := answerOf_eq ha (by have := C08_exactly_once h r b hb; omega)
  simp [step, hw, this]

/-- C08: a caller returns with the answer to its request or with the time-out error. -/
theorem C08_returned_value {o : AppOpts} {s : AState} (h : Reachable o s) (r : Nat) (e : Option Err)
    (hr : Obs.returned r e ∈ s.log) :
    Obs.answer r e ∈ s.log ∨ e = some (.sentinel .blockApplicationTimeout) := (prov_reachable h).good _ hr

example : Obs.call 1 exK ∈ exS1.log ∧ (held exS1).count 1 = 1 := by decide +kernel

example : ∃ s, App.run exO exS0 (exRun ++ [.rpcReturn 0 none, .status 0]) = some s ∧
    0 ∈ s.waiting ∧ Obs.answer 0 none ∈ s.log := ⟨_, rfl, by decide +kernel, by decide +kernel⟩

/-! ## C09 -/

/-- C09: at most one submission of an id is without a verdict. -/
theorem C09_one_submission {o : AppOpts} {s : AState} (h : Reachable o s) (id : Bytes) :
    verdicts s.log id ≤ submissions s.log id ∧ submissions s.log id ≤ verdicts s.log id + 1 := by
  have h1 := sub_reachable h id
  have h2 := inRPC_le_one (inv_reachable h) id
  unfold SubInv at h1
  omega

/-- C09, in terms of the workers: two workers never submit the same id at the same time. -/
theorem C09_no_concurrent {o : AppOpts} {s : AState} (h : Reachable o s) (i j : Nat) (a b : Blk)
    (hi : s.apps[i]? = some ⟨a, .inRPC⟩) (hj : s.apps[j]? = some ⟨b, .inRPC⟩) (hid : a.id = b.id) : i = j := by
  have hn := (inv_reachable h).nodup
  obtain ⟨hi', hi⟩ := List.getElem?_eq_some_iff.1 hi
  obtain ⟨hj', hj⟩ := List.getElem?_eq_some_iff.1 hj
  refine (hn.getElem_inj_iff (hi := by simpa using hi') (hj := by simpa using hj')).1 ?_
  simp only [List.getElem_map, hi, hj, hid]

example : submissions exS1.log [1] = 1 ∧ verdicts exS1.log [1] = 0 := by decide +kernel

/-! ## C10 -/

/-- C10 (partial: the worker's comparison and its call of the chain are one step here; `Props/SubmitWindow.lean` takes
them apart): whenever a worker decides to submit a block, its height is above the irreversible height known at that
moment. -/
theorem C10_decision_partial {o : AppOpts} {s s' : AState} {l : Label} (h : Reachable o s)
    (hst : step o s l = some s') :
    ∃ new, s'.log = new ++ s.log ∧ ∀ b, Obs.submit b ∈ new → s.lib < b.height ∧ s'.lib = s.lib := by
  obtain ⟨new, hl, hs, _⟩ := step_log (inv_reachable h) hst
  refine ⟨new, hl, fun b hb => ?_⟩
  obtain ⟨i, rfl, ha, hlt⟩ := hs b hb
  refine ⟨hlt, ?_⟩
  obtain ⟨b', _, ⟨_, rfl⟩ | ⟨_, rfl⟩⟩ := step_work hst <;> rfl

/-- C10: a queued block that has become irreversible ends with the irreversibility error and without submission. -/
theorem C10_outdated_job {o : AppOpts} (s : AState) (i : Nat) (b : Blk) (ha : s.apps[i]? = some ⟨b, .queued⟩)
    (hl : b.height ≤ s.lib) :
    step o s (.work i) =
      some { s with apps := s.apps.set i ⟨b, .done (some (.sentinel .blockIrreversibility))⟩ } := by
  simp [step, ha, hl]

/-- The irreversible height reaches the block while it is queued. -/
example : ∃ s, App.run exO exS0 [.applyBlock exP, .newBlock 0, .tryBlock 0, .forkHeads [] 11] = some s ∧
    s.apps[0]? = some ⟨exP, .queued⟩ ∧ exP.height ≤ s.lib := ⟨_, rfl, by decide +kernel, by decide +kernel⟩

/-! ## C11 -/

/-- C11: at every moment all waiting blocks are above the irreversible height. -/
theorem C11_above_lib {o : AppOpts} {s : AState} (h : Reachable o s) (b : Blk) (hw : Waiting s b) : s.lib < b.height := by
  obtain ⟨x, hx, rfl⟩ := hw
  exact (inv_reachable h).above _ x hx

theorem heights_above {lib L h : UInt64} (hl : lib < h) : h ∈ heights lib L ↔ h ≤ L := by
  rw [mem_heights]
  have h1 : lib.toNat < h.toNat := UInt64.lt_iff_toNat_lt.1 hl
  have h2 := h.toNat_lt
  have h3 : (lib + 1).toNat = lib.toNat + 1 := by
    rw [UInt64.toNat_add]
    simp only [UInt64.toNat_one]
    omega
  rw [UInt64.le_iff_toNat_le, h3]
  omega

/-- C11: an update to `L` evicts exactly the waiting blocks at or below `L`; the others keep waiting unchanged, with
all their requests; the irreversible height is `L`. -/
theorem C11_evicts_exactly {o : AppOpts} {s s' : AState} {heads : List Bytes} {L : UInt64} (h : Reachable o s)
    (hst : step o s (.forkHeads heads L) = some s') :
    s'.lib = L ∧ ∀ id, s'.byId.get id = (s.byId.get id).bind fun x => if x.block.height ≤ L then none else some x := by
  have hinv := inv_reachable h
  obtain ⟨_, rfl⟩ := step_forkHeads hst
  rw [handleForkHeads_eq]
  obtain ⟨_, h2, h3⟩ := evict_spec (heights s.lib L)
    { s with lib := L, watchdog := s.watchdog.purge L, tries := s.tries ++ heads.flatMap (kids o s) }
    (hinv.idx.of_eq rfl rfl rfl)
  refine ⟨h2.lib, fun id => ?_⟩
  simp only
  rw [h3 id]
  simp only
  cases hg : s.byId.get id with
  | none => rfl
  | some x =>
    have := heights_above (L := L) (hinv.above id x hg)
    simp only [Option.bind_some, this]

/-- C11: the update answers exactly the requests of the evicted blocks, each once, with the irreversibility error,
and nothing else. -/
theorem C11_answers_exactly {o : AppOpts} {s s' : AState} {heads : List Bytes} {L : UInt64} (h : Reachable o s)
    (hst : step o s (.forkHeads heads L) = some s') :
    ∃ rs : List Nat, s'.log = rs.map (fun r => Obs.answer r (some (.sentinel .blockIrreversibility))) ++ s.log ∧
      rs.Perm ((s.byId.entries.filter fun x => decide (x.2.block.height ≤ L)).flatMap fun x => x.2.chans) := by
  have hev := (C11_evicts_exactly h hst).2
  have hinv := inv_reachable h
  obtain ⟨_, rfl⟩ := step_forkHeads hst
  rw [handleForkHeads_eq] at hev ⊢
  obtain ⟨_, h2, _⟩ := evict_spec (heights s.lib L)
    { s with lib := L, watchdog := s.watchdog.purge L, tries := s.tries ++ heads.flatMap (kids o s) }
    (hinv.idx.of_eq rfl rfl rfl)
  obtain ⟨rs, hl, hp⟩ := h2.log
  refine ⟨rs, hl, ?_⟩
  revert hp
  generalize ((heights s.lib L).foldl evictHeight
    { s with lib := L, watchdog := s.watchdog.purge L, tries := s.tries ++ heads.flatMap (kids o s) }) = t at hev
  intro hp
  simp only at hp hev
  have hperm : t.byId.entries.Perm (s.byId.entries.filter fun x => !decide (x.2.block.height ≤ L)) := by
    rw [List.perm_ext_iff_of_nodup (List.Nodup.of_map _ t.byId.nodup)
      ((List.Nodup.of_map _ s.byId.nodup).filter _)]
    rintro ⟨k, x⟩
    rw [← GoMap.get_eq_some_iff, hev k, List.mem_filter, ← GoMap.get_eq_some_iff]
    cases hg : s.byId.get k with
    | none => simp
    | some y =>
      simp only [Option.bind_some, Option.some.injEq, Bool.not_eq_true', decide_eq_false_iff_not]
      constructor
      · intro hy
        split at hy
        · cases hy
        · rename_i hn; cases hy; exact ⟨rfl, hn⟩
      · rintro ⟨rfl, hn⟩
        rw [if_neg hn]
  have hsplit := (List.filter_append_perm (fun x => decide (x.2.block.height ≤ L)) s.byId.entries).flatMap_right
    (fun x => x.2.chans)
  rw [List.flatMap_append] at hsplit
  have h5 := hp.trans (hsplit.symm.trans List.perm_append_comm)
  have h6 := (hperm.flatMap_right (fun x => x.2.chans)).symm
  exact (List.perm_append_left_iff _).1 ((h6.append_right rs).trans h5)

example : Waiting exS1 exK ∧ exK.height ≤ 12 ∧ Waiting exS1 exFar ∧ 12 < exFar.height ∧ exS1.hung = false := by
  refine ⟨⟨⟨exK, [1]⟩, by decide +kernel, rfl⟩, by decide +kernel, ⟨⟨exFar, [2]⟩, by decide +kernel, rfl⟩,
    by decide +kernel, by decide +kernel⟩

/-! ## C12 -/

/-- C12. -/
theorem C12_bounded {o : AppOpts} {s : AState} (h : Reachable o s) :
    (waitingBlocks s).length ≤ o.maxPendingBlocks.toNat := by
  have := (inv_reachable h).size
  unfold waitingBlocks
  rw [List.length_map]
  exact this

/-- The bound is reached. -/
example : ∃ s, App.run { exO with maxPendingBlocks := 1 } exS0 [.applyBlock exP, .applyBlock exK, .newBlock 0,
    .newBlock 0] = some s ∧ (waitingBlocks s).length = 1 ∧
    Obs.answer 1 (some (.sentinel .maxPendingBlocks)) ∈ s.log := ⟨_, rfl, by decide +kernel, by decide +kernel⟩

/-! ## C13 -/

/-- What the handling of a new block does when it is refused, and when it is admitted. -/
theorem C13_effect {o : AppOpts} {s s' : AState} {i r : Nat} {b : Blk} (hq : s.newQ[i]? = some (r, b))
    (hst : step o s (.newBlock i) = some s') :
    match admission o s b with
    | some e => s' = { s with newQ := s.newQ.eraseIdx i, log := .answer r (some e) :: s.log }
    | none => answered s'.log = answered s.log ∧
        s'.byId.get b.id = some { block := ((s.byId.get b.id).map (·.block)).getD b,
                                  chans := ((s.byId.get b.id).map (·.chans)).getD [] ++ [r] } ∧
        ∀ id, id ≠ b.id → s'.byId.get id = s.byId.get id := by
  obtain ⟨_, r', b', hq', rfl⟩ := step_newBlock hst
  rw [hq] at hq'
  cases hq'
  unfold handleNewBlock
  have ha : admission o { s with newQ := s.newQ.eraseIdx i } b = admission o s b := rfl
  rw [ha]
  cases admission o s b with
  | some e => rfl
  | none =>
    simp only
    have hg := get_addTables { s with newQ := s.newQ.eraseIdx i } r b
    obtain ⟨m, p, hh', hf⟩ := addTables_frame { s with newQ := s.newQ.eraseIdx i } r b
    have key : ∀ s' : AState, s'.byId = (addTables { s with newQ := s.newQ.eraseIdx i } r b).byId →
        answered s'.log = answered s.log →
        answered s'.log = answered s.log ∧
        s'.byId.get b.id = some { block := ((s.byId.get b.id).map (·.block)).getD b,
                                  chans := ((s.byId.get b.id).map (·.chans)).getD [] ++ [r] } ∧
        ∀ id, id ≠ b.id → s'.byId.get id = s.byId.get id := by
      intro s' e1 e2
      refine ⟨e2, ?_, fun id hid => ?_⟩
      · rw [e1, hg, if_pos rfl]
        simp only
        cases s.byId.get b.id <;> rfl
      · rw [e1, hg, if_neg hid]
    rcases addBlockEntry_cases { s with newQ := s.newQ.eraseIdx i } r b with ⟨_, he⟩ | ⟨_, _, he⟩
    · rw [he]; exact key _ rfl rfl
    · rw [he]
      refine key _ rfl ?_
      rw [hf]

/-- C13, the decision: as specified whenever `highest + MaxHeightDelta` is below 2^64 and the limit below 2^63.
Missing for the full statement: the other values, for which it is false (`C13_admission_refuted`). -/
theorem C13_admission_partial (o : AppOpts) (s : AState) (b : Blk)
    (h1 : s.highest.toNat + o.maxHeightDelta.toNat < 2 ^ 64) (h2 : o.maxPendingBlocks.toNat < 2 ^ 63) :
    admission o s b = (Spec.admit s.highest.toNat o.maxHeightDelta.toNat (waitingBlocks s).length
      o.maxPendingBlocks.toNat s.lib.toNat b.height.toNat).map Err.sentinel := by
  have ha : (s.highest + o.maxHeightDelta).toNat = s.highest.toNat + o.maxHeightDelta.toNat := by
    rw [UInt64.toNat_add]; exact Nat.mod_eq_of_lt h1
  have hi : o.maxPendingBlocks.toBitVec.toInt = (o.maxPendingBlocks.toNat : Int) := by
    rw [BitVec.toInt_eq_toNat_cond]
    have : o.maxPendingBlocks.toBitVec.toNat = o.maxPendingBlocks.toNat := rfl
    rw [this, if_pos (by omega)]
  have hw : (waitingBlocks s).length = s.byId.len := by unfold waitingBlocks; rw [List.length_map]; rfl
  unfold admission Spec.admit
  rw [hi, hw]
  simp only [gt_iff_lt, UInt64.lt_iff_toNat_lt, UInt64.le_iff_toNat_le, ha, ge_iff_le, Int.ofNat_le]
  split
  · rfl
  · split
    · rfl
    · split <;> rfl

/-- C13 refuted at the boundary: with the highest known height near 2^64 the sum wraps and a block only one above it
is refused as too high. -/
theorem C13_admission_refuted :
    let s : AState := App.init 18446744073709551600 5 0
    let b : Blk := ⟨[1], [0], 18446744073709551601, 0, [], []⟩
    admission exO s b = some (.sentinel .maxHeight) ∧
    Spec.admit s.highest.toNat exO.maxHeightDelta.toNat (waitingBlocks s).length exO.maxPendingBlocks.toNat s.lib.toNat
      b.height.toNat = none := by
  decide +kernel

example : exS1.highest.toNat + exO.maxHeightDelta.toNat < 2 ^ 64 ∧ exO.maxPendingBlocks.toNat < 2 ^ 63 := by
  decide +kernel

/-! ## C14 -/

/-- C14, what holds: if `ApplyBlock` returns no error and no waiting time-out ever fired for that id, the chain was
given a block with that id and accepted it. -/
theorem C14_accepted_partial {o : AppOpts} {s : AState} (h : Reachable o s) (r : Nat) (b : Blk)
    (hc : Obs.call r b ∈ s.log) (hr : Obs.returned r none ∈ s.log)
    (hd : ∀ b', Obs.delayTimeout b' ∈ s.log → b'.id ≠ b.id) :
    ∃ b', b'.id = b.id ∧ Obs.submit b' ∈ s.log ∧ Obs.verdict b' none ∈ s.log := by
  have hp := prov_reachable h
  rcases C08_returned_value h r none hr with ha | ha
  · obtain ⟨c, hcc, hrep⟩ := hp.good _ ha
    have := hp.callInj r c b hcc hc
    subst this
    rcases hrep with h1 | h1 | h1 | ⟨b', hid, _, hv | ⟨_, hdt⟩ | h1⟩
    · cases h1
    · cases h1
    · cases h1
    · exact ⟨b', hid, hp.good _ hv, hv⟩
    · exact absurd hid (hd b' hdt)
    · cases h1
  · cases ha

/-- A block ten minutes in the future. -/
def exFuture : Blk := ⟨[4], [0], 11, 600000, [], []⟩

/-- C14 refuted: the request returns success although the block was never submitted. -/
theorem C14_accepted_refuted :
    ∃ s, App.run exO exS0 [.applyBlock exFuture, .newBlock 0, .tryBlock 0, .tick 60000000000, .delayTimeout 0,
      .status 0, .callerReturns 0] = some s ∧
      Obs.returned 0 none ∈ s.log ∧ submissions s.log exFuture.id = 0 := ⟨_, rfl, by decide +kernel, by decide +kernel⟩

example : ∃ s, App.run exO exS0 (exRun ++ [.rpcReturn 0 none, .status 0, .callerReturns 0]) = some s ∧
    Obs.call 0 exP ∈ s.log ∧ Obs.returned 0 none ∈ s.log ∧
    (s.log.all fun | .delayTimeout _ => false | _ => true) = true :=
  ⟨_, rfl, by decide +kernel, by decide +kernel, by decide +kernel⟩

/-! ## C15 -/

/-- C15, what holds: if all requests with the id of `b` carry exactly `b`, every answer other than the admission and
irreversibility errors is the chain's verdict on a submission of exactly `b` (or the waiting time-out of C14). -/
theorem C15_own_verdict_partial {o : AppOpts} {s : AState} (h : Reachable o s) (r : Nat) (b : Blk) (e : Option Err)
    (hc : Obs.call r b ∈ s.log) (ha : Obs.answer r e ∈ s.log)
    (hsame : ∀ r' b', Obs.call r' b' ∈ s.log → b'.id = b.id → b' = b) :
    (Obs.verdict b e ∈ s.log ∧ Obs.submit b ∈ s.log) ∨ (e = none ∧ Obs.delayTimeout b ∈ s.log) ∨
      e ∈ [some (Err.sentinel .maxHeight), some (.sentinel .maxPendingBlocks), some (.sentinel .blockIrreversibility)] := by
  have hp := prov_reachable h
  obtain ⟨c, hcc, hrep⟩ := hp.good _ ha
  have := hp.callInj r c b hcc hc
  subst this
  rcases hrep with rfl | rfl | rfl | ⟨b', hid, ⟨r', hk⟩, hv⟩
  · simp
  · simp
  · simp
  · have := hsame r' b' hk hid
    subst this
    rcases hv with hv | hv | rfl
    · exact Or.inl ⟨hv, hp.good _ hv⟩
    · exact Or.inr (Or.inl hv)
    · simp

/-- A forged block with the id of `exP`. -/
def exForged : Blk := ⟨[1], [0], 11, 0, [], [66]⟩

/-- C15 refuted: the honest request (number 1, block `exP`) is answered with the verdict on a forged block with the
same id; its own block is never submitted. -/
theorem C15_own_verdict_refuted :
    ∃ s, App.run exO exS0 [.applyBlock exForged, .newBlock 0, .applyBlock exP, .newBlock 0, .tryBlock 0, .work 0,
      .rpcReturn 0 (some (.sentinel .blockApplication)), .status 0, .callerReturns 1] = some s ∧
      Obs.call 1 exP ∈ s.log ∧ Obs.returned 1 (some (.sentinel .blockApplication)) ∈ s.log ∧
      Obs.submit exP ∉ s.log := ⟨_, rfl, by decide +kernel, by decide +kernel, by decide +kernel⟩

/-- C15 refuted, the other way: a forged block is reported as accepted. -/
theorem C15_forged_success_refuted :
    ∃ s, App.run exO exS0 [.applyBlock exP, .newBlock 0, .applyBlock exForged, .newBlock 0, .tryBlock 0, .work 0,
      .rpcReturn 0 none, .status 0, .callerReturns 1] = some s ∧
      Obs.call 1 exForged ∈ s.log ∧ Obs.returned 1 none ∈ s.log ∧ Obs.submit exForged ∉ s.log :=
  ⟨_, rfl, by decide +kernel, by decide +kernel, by decide +kernel⟩

example : ∃ s, App.run exO exS0 (exRun ++ [.rpcReturn 0 none, .status 0]) = some s ∧ Obs.answer 0 none ∈ s.log ∧
    Obs.call 0 exP ∈ s.log ∧ Obs.verdict exP none ∈ s.log :=
  ⟨_, rfl, by decide +kernel, by decide +kernel, by decide +kernel⟩

/-! ## C22 -/

/-- C22: both lookup tables hold exactly the waiting blocks (under their parent, under their height), without empty
leftovers, and the set of blocks being applied holds exactly the ids of the running applications. -/
theorem C22_tables {o : AppOpts} {s : AState} (h : Reachable o s) :
    (∀ p id, (∃ ids, s.byPrev.get p = some ids ∧ ids.has id = true) ↔ ∃ b, Waiting s b ∧ b.id = id ∧ b.previous = p) ∧
    (∀ n id, (∃ ids, s.byHeight.get n = some ids ∧ ids.has id = true) ↔ ∃ b, Waiting s b ∧ b.id = id ∧ b.height = n) ∧
    (∀ p ids, s.byPrev.get p = some ids → ids.len ≠ 0) ∧
    (∀ n ids, s.byHeight.get n = some ids → ids.len ≠ 0) ∧
    (∀ id, s.pending.has id = true ↔ ∃ a ∈ s.apps, a.blk.id = id) := by
  have hi := inv_reachable h
  refine ⟨fun p id => ?_, fun n id => ?_, hi.idx.prev.nonempty, hi.idx.height.nonempty, fun id => ?_⟩
  · rw [hi.idx.prev.mem]
    constructor
    · rintro ⟨e, he, hp⟩
      have hk := hi.idx.key id e he
      exact ⟨e.block, ⟨e, by rw [hk]; exact he, rfl⟩, hk, hp⟩
    · rintro ⟨b, ⟨e, he, rfl⟩, rfl, hp⟩
      exact ⟨e, he, hp⟩
  · rw [hi.idx.height.mem]
    constructor
    · rintro ⟨e, he, hp⟩
      have hk := hi.idx.key id e he
      exact ⟨e.block, ⟨e, by rw [hk]; exact he, rfl⟩, hk, hp⟩
    · rintro ⟨b, ⟨e, he, rfl⟩, rfl, hp⟩
      exact ⟨e, he, hp⟩
  · rw [hi.pend, List.mem_map]

/-- C22: when no block is waiting the tables are empty. -/
theorem C22_empty {o : AppOpts} {s : AState} (h : Reachable o s) (hw : waitingBlocks s = []) :
    s.byId.len = 0 ∧ s.byPrev.len = 0 ∧ s.byHeight.len = 0 := by
  obtain ⟨h1, h2, h3, h4, _⟩ := C22_tables h
  have hno : ∀ b, ¬ Waiting s b := by
    intro b hb
    have := (mem_waitingBlocks (inv_reachable h).idx b).2 hb
    rw [hw] at this
    cases this
  refine ⟨?_, ?_, ?_⟩
  · unfold waitingBlocks at hw
    rw [List.map_eq_nil_iff] at hw
    unfold GoMap.len
    rw [hw]; rfl
  · rw [GoMap.len_eq_zero_iff]
    intro p
    cases hp : s.byPrev.get p with
    | none => rfl
    | some ids =>
      exfalso
      refine h3 p ids hp ((GoMap.len_eq_zero_iff _).2 fun k => ?_)
      cases hk : ids.get k with
      | none => rfl
      | some u =>
        obtain ⟨b, hb, _⟩ := (h1 p k).1 ⟨ids, hp, (GoMap.has_iff _ _).2 ⟨u, hk⟩⟩
        exact absurd hb (hno b)
  · rw [GoMap.len_eq_zero_iff]
    intro n
    cases hp : s.byHeight.get n with
    | none => rfl
    | some ids =>
      exfalso
      refine h4 n ids hp ((GoMap.len_eq_zero_iff _).2 fun k => ?_)
      cases hk : ids.get k with
      | none => rfl
      | some u =>
        obtain ⟨b, hb, _⟩ := (h2 n k).1 ⟨ids, hp, (GoMap.has_iff _ _).2 ⟨u, hk⟩⟩
        exact absurd hb (hno b)

example : ∃ s, App.run exO exS0 (exRun ++ [.forkHeads [] 20]) = some s ∧ waitingBlocks s = [] ∧ s.log ≠ [] :=
  ⟨_, rfl, by decide +kernel, by decide +kernel⟩

/-! ## C59 -/

/-- Executions of `for h := h0; h <= lim; h++` on 64-bit values: `Loop lim h vs` if, started at `h`, the loop visits
`vs` and ends. -/
inductive Loop (lim : UInt64) : UInt64 → List UInt64 → Prop
  | stop (h : UInt64) : ¬ h ≤ lim → Loop lim h []
  | next (h : UInt64) (vs : List UInt64) : h ≤ lim → Loop lim (h + 1) vs → Loop lim h (h :: vs)

theorem loop_terminates (lim : UInt64) (hl : lim.toNat ≠ 2 ^ 64 - 1) (n : Nat) (h : UInt64)
    (hn : lim.toNat + 1 - h.toNat = n) :
    Loop lim h ((List.range n).map fun i => UInt64.ofNat (h.toNat + i)) := by
  induction n generalizing h with
  | zero =>
    refine Loop.stop h ?_
    rw [UInt64.le_iff_toNat_le]; omega
  | succ n ih =>
    rw [List.range_succ_eq_map, List.map_cons, List.map_map]
    have hle : h ≤ lim := by rw [UInt64.le_iff_toNat_le]; omega
    have h1 : (h + 1).toNat = h.toNat + 1 := by
      rw [UInt64.toNat_add]; simp only [UInt64.toNat_one]
      have := lim.toNat_lt
      omega
    have h0 : UInt64.ofNat (h.toNat + 0) = h := by simp
    rw [h0]
    refine Loop.next h _ hle ?_
    have := ih (h + 1) (by omega)
    convert this using 2
    funext i
    simp only [Function.comp, h1]
    congr 1
    omega

theorem loop_never (h : UInt64) (vs : List UInt64) (lim : UInt64) (hl : lim.toNat = 2 ^ 64 - 1) : ¬ Loop lim h vs := by
  intro hh
  induction hh with
  | stop h hn => exact hn (by rw [UInt64.le_iff_toNat_le]; have := h.toNat_lt; omega)
  | next _ _ _ _ ih => exact ih

/-- C59: the eviction loop ends iff the new height is not 2^64-1, and then it visits exactly the heights the model
visits. -/
theorem C59_terminates (oldLib lib : UInt64) :
    (∀ vs, Loop lib (oldLib + 1) vs ↔ lib.toNat ≠ 2 ^ 64 - 1 ∧ vs = heights oldLib lib) := by
  intro vs
  have det : ∀ h vs ws, Loop lib h vs → Loop lib h ws → vs = ws := by
    intro h vs ws h1
    induction h1 generalizing ws with
    | stop h hn =>
      intro h2
      cases h2 with
      | stop => rfl
      | next _ _ hle => exact absurd hle hn
    | next h vs hle _ ih =>
      intro h2
      cases h2 with
      | stop _ hn => exact absurd hle hn
      | next _ ws _ h2 => rw [ih ws h2]
  constructor
  · intro h
    have hl : lib.toNat ≠ 2 ^ 64 - 1 := fun hl => loop_never _ _ _ hl h
    exact ⟨hl, det _ _ _ h (loop_terminates lib hl _ _ rfl)⟩
  · rintro ⟨hl, rfl⟩
    exact loop_terminates lib hl _ _ rfl

/-- C59: the heights visited are those from `oldLib + 1` to `lib` (without wrapping: `oldLib < 2^64-1`). -/
theorem C59_visits (oldLib lib h : UInt64) (ho : oldLib.toNat < 2 ^ 64 - 1) :
    h ∈ heights oldLib lib ↔ oldLib < h ∧ h ≤ lib := by
  rw [mem_heights, UInt64.lt_iff_toNat_lt, UInt64.le_iff_toNat_le]
  have : (oldLib + 1).toNat = oldLib.toNat + 1 := by
    rw [UInt64.toNat_add]; simp only [UInt64.toNat_one]; omega
  omega

/-- C59: after an update to 2^64-1 the main loop never takes another step. -/
theorem C59_hangs {o : AppOpts} {s s' : AState} {heads : List Bytes}
    (hst : step o s (.forkHeads heads 18446744073709551615) = some s') (i : Nat) (hs : List Bytes) (L n : UInt64)
    (id : Bytes) :
    step o s' (.newBlock i) = none ∧ step o s' (.tryBlock i) = none ∧ step o s' (.status i) = none ∧
      step o s' (.forkHeads hs L) = none ∧ step o s' (.broadcast id n) = none := by
  obtain ⟨_, rfl⟩ := step_forkHeads hst
  have : (handleForkHeads o s heads 18446744073709551615).hung = true := rfl
  simp [step, this]

example : heights 5 8 = [6, 7, 8] ∧ heights 8 5 = [] := by decide +kernel

end KP2P

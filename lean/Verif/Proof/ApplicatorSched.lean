import Verif.Proof.ApplicatorProv
/-!
# Applicator: callers, submissions, time, parking and scheduling
-/

namespace KP2P
namespace App

/-! ### Shape of the log after a step -/

theorem step_log {o : AppOpts} {s : AState} {l : Label} {s' : AState} (hinv : Inv o s) (hst : step o s l = some s') :
    ∃ new, s'.log = new ++ s.log ∧
      (∀ b, Obs.submit b ∈ new → ∃ i, l = .work i ∧ s.apps[i]? = some ⟨b, .queued⟩ ∧ s.lib < b.height) ∧
      (∀ b, Obs.start b ∈ new → ∃ i f, l = .tryBlock i ∧ s.tries[i]? = some (b, f) ∧ s.pending.has b.id = false) := by
  cases l with
  | applyBlock b =>
    rcases step_applyBlock hst with ⟨e, _, rfl⟩ | ⟨_, rfl⟩
    · exact ⟨[_, _], rfl, by simp, by simp⟩
    · exact ⟨[_], rfl, by simp, by simp⟩
  | callerReturns r => obtain ⟨_, e, _, rfl⟩ := step_callerReturns hst; exact ⟨[_], rfl, by simp, by simp⟩
  | callerTimesOut r => obtain ⟨_, rfl⟩ := step_callerTimesOut hst; exact ⟨[_], rfl, by simp, by simp⟩
  | newBlock i =>
    obtain ⟨_, r, b, hq, rfl⟩ := step_newBlock hst
    unfold handleNewBlock
    cases ha : admission o { s with newQ := s.newQ.eraseIdx i } b with
    | some e => exact ⟨[_], rfl, by simp, by simp⟩
    | none =>
      simp only
      rcases addBlockEntry_cases { s with newQ := s.newQ.eraseIdx i } r b with ⟨_, he⟩ | ⟨_, _, he⟩
      · rw [he]; exact ⟨[_], rfl, by simp, by simp⟩
      · rw [he]
        obtain ⟨m, p, hh', hf⟩ := addTables_frame { s with newQ := s.newQ.eraseIdx i } r b
        refine ⟨[], ?_, by simp, by simp⟩
        rw [hf]; rfl
  | forkHeads heads lib =>
    obtain ⟨_, rfl⟩ := step_forkHeads hst
    rw [handleForkHeads_eq]
    obtain ⟨_, h2, _⟩ := evict_spec (heights s.lib lib)
      { s with lib := lib, watchdog := s.watchdog.purge lib, tries := s.tries ++ heads.flatMap (kids o s) }
      (hinv.idx.of_eq rfl rfl rfl)
    obtain ⟨rs, hl, _⟩ := h2.log
    exact ⟨_, hl, by simp, by simp⟩
  | broadcast id height =>
    obtain ⟨_, rfl⟩ := step_broadcast hst
    rw [handleBroadcast_eq]; exact ⟨[], rfl, by simp, by simp⟩
  | tryBlock i =>
    obtain ⟨_, b, f, ht, rfl⟩ := step_tryBlock hst
    unfold handleTry
    split
    · split <;> exact ⟨[], rfl, by simp, by simp⟩
    · rename_i hp
      refine ⟨[_], rfl, by simp, ?_⟩
      intro c hc
      simp at hc; subst hc
      exact ⟨i, f, rfl, ht, by simpa using hp⟩
  | status i =>
    obtain ⟨_, b, e, ha, rfl⟩ := step_status hst
    rcases handleStatus_cases o { s with apps := s.apps.eraseIdx i } b e with ⟨_, hs⟩ | ⟨_, _, hs⟩ | ⟨_, _, hs⟩
    · rw [hs]; exact ⟨[_], rfl, by simp, by simp⟩
    · rw [hs]; exact ⟨[_], rfl, by simp, by simp⟩
    · rw [hs, log_remove]
      refine ⟨_ ++ [Obs.status b e], (List.append_assoc _ [Obs.status b e] s.log).symm, ?_, ?_⟩
      · simp
      · simp
  | delayDone i => obtain ⟨b, t, t', ha, _, rfl⟩ := step_delayDone hst; exact ⟨[], rfl, by simp, by simp⟩
  | delayTimeout i => obtain ⟨b, t, t', ha, _, rfl⟩ := step_delayTimeout hst; exact ⟨[_], rfl, by simp, by simp⟩
  | work i =>
    obtain ⟨b, ha, ⟨_, rfl⟩ | ⟨hl, rfl⟩⟩ := step_work hst
    · exact ⟨[], rfl, by simp, by simp⟩
    · refine ⟨[_], rfl, ?_, by simp⟩
      intro c hc
      simp at hc; subst hc
      exact ⟨i, rfl, ha, UInt64.not_le.1 hl⟩
  | rpcReturn i e => obtain ⟨b, ha, rfl⟩ := step_rpcReturn hst; exact ⟨[_], rfl, by simp, by simp⟩
  | retryDue i => obtain ⟨t, b, _, _, rfl⟩ := step_retryDue hst; exact ⟨[], rfl, by simp, by simp⟩
  | tick d => rw [step_tick hst]; exact ⟨[], rfl, by simp, by simp⟩

/-! ### Callers -/

/-- Every call is waiting, has returned, or was refused. -/
def Callers (s : AState) : Prop :=
  (s.waiting ++ returnedCalls s.log ++ refusedCalls s.log).Perm (List.range s.nextReq)

theorem Callers.of_eq {s s' : AState} (h : Callers s) (h1 : s'.waiting = s.waiting)
    (h2 : returnedCalls s'.log = returnedCalls s.log) (h3 : refusedCalls s'.log = refusedCalls s.log)
    (h4 : s'.nextReq = s.nextReq) : Callers s' := by
  unfold Callers; rw [h1, h2, h3, h4]; exact h

theorem returned_map (rs : List Nat) (e : Option Err) (log : List Obs) :
    returnedCalls (rs.map (fun r => Obs.answer r e) ++ log) = returnedCalls log := by
  induction rs with
  | nil => rfl
  | cons r rs ih => exact ih

theorem callers_step (o : AppOpts) (s : AState) (l : Label) (s' : AState) (hinv : Inv o s) (h : Callers s)
    (hst : step o s l = some s') : Callers s' := by
  cases l with
  | applyBlock b =>
    rcases step_applyBlock hst with ⟨e, _, rfl⟩ | ⟨_, rfl⟩
    · change (s.waiting ++ returnedCalls s.log ++ (s.nextReq :: refusedCalls s.log)).Perm (List.range (s.nextReq + 1))
      rw [List.range_succ]
      exact List.perm_middle.trans ((List.Perm.cons _ h).trans (List.perm_append_singleton _ _).symm)
    · change (s.nextReq :: (s.waiting ++ returnedCalls s.log ++ refusedCalls s.log)).Perm (List.range (s.nextReq + 1))
      rw [List.range_succ]
      exact (List.Perm.cons _ h).trans (List.perm_append_singleton _ _).symm
  | callerReturns r =>
    obtain ⟨hw, e, _, rfl⟩ := step_callerReturns hst
    refine List.Perm.trans ?_ h
    change (s.waiting.erase r ++ (r :: returnedCalls s.log) ++ refusedCalls s.log).Perm _
    refine List.Perm.append_right _ (List.perm_middle.trans ?_)
    rw [← List.cons_append]
    exact List.Perm.append_right _ (List.perm_cons_erase hw).symm
  | callerTimesOut r =>
    obtain ⟨hw, rfl⟩ := step_callerTimesOut hst
    refine List.Perm.trans ?_ h
    change (s.waiting.erase r ++ (r :: returnedCalls s.log) ++ refusedCalls s.log).Perm _
    refine List.Perm.append_right _ (List.perm_middle.trans ?_)
    rw [← List.cons_append]
    exact List.Perm.append_right _ (List.perm_cons_erase hw).symm
  | newBlock i =>
    obtain ⟨_, r, b, hq, rfl⟩ := step_newBlock hst
    unfold handleNewBlock
    cases ha : admission o { s with newQ := s.newQ.eraseIdx i } b with
    | some e => exact h.of_eq rfl rfl rfl rfl
    | none =>
      simp only
      obtain ⟨m, p, hh', hf⟩ := addTables_frame { s with newQ := s.newQ.eraseIdx i } r b
      rcases addBlockEntry_cases { s with newQ := s.newQ.eraseIdx i } r b with ⟨_, he⟩ | ⟨_, _, he⟩
      · rw [he, hf]; exact h.of_eq rfl rfl rfl rfl
      · rw [he, hf]; exact h.of_eq rfl rfl rfl rfl
  | forkHeads heads lib =>
    obtain ⟨_, rfl⟩ := step_forkHeads hst
    rw [handleForkHeads_eq]
    obtain ⟨_, h2, _⟩ := evict_spec (heights s.lib lib)
      { s with lib := lib, watchdog := s.watchdog.purge lib, tries := s.tries ++ heads.flatMap (kids o s) }
      (hinv.idx.of_eq rfl rfl rfl)
    obtain ⟨rs, hl, _⟩ := h2.log
    refine h.of_eq h2.waiting ?_ ?_ h2.nextReq
    · exact (congrArg returnedCalls hl).trans (returned_map _ _ _)
    · exact (congrArg refusedCalls hl).trans (refused_map _ _ _)
  | broadcast id height =>
    obtain ⟨_, rfl⟩ := step_broadcast hst
    rw [handleBroadcast_eq]; exact h.of_eq rfl rfl rfl rfl
  | tryBlock i =>
    obtain ⟨_, b, f, ht, rfl⟩ := step_tryBlock hst
    unfold handleTry
    split
    · split <;> exact h.of_eq rfl rfl rfl rfl
    · exact h.of_eq rfl rfl rfl rfl
  | status i =>
    obtain ⟨_, b, e, ha, rfl⟩ := step_status hst
    rcases handleStatus_cases o { s with apps := s.apps.eraseIdx i } b e with ⟨_, hs⟩ | ⟨_, _, hs⟩ | ⟨_, _, hs⟩
    · rw [hs]; exact h.of_eq rfl rfl rfl rfl
    · rw [hs]; exact h.of_eq rfl rfl rfl rfl
    · rw [hs]
      refine h.of_eq (onlyRemoved_remove _ _ _).waiting ?_ ?_ (onlyRemoved_remove _ _ _).nextReq
      · rw [log_remove, returned_map]; rfl
      · rw [log_remove, refused_map]; rfl
  | delayDone i => obtain ⟨b, t, t', ha, _, rfl⟩ := step_delayDone hst; exact h.of_eq rfl rfl rfl rfl
  | delayTimeout i => obtain ⟨b, t, t', ha, _, rfl⟩ := step_delayTimeout hst; exact h.of_eq rfl rfl rfl rfl
  | work i => obtain ⟨b, ha, ⟨_, rfl⟩ | ⟨_, rfl⟩⟩ := step_work hst <;> exact h.of_eq rfl rfl rfl rfl
  | rpcReturn i e => obtain ⟨b, ha, rfl⟩ := step_rpcReturn hst; exact h.of_eq rfl rfl rfl rfl
  | retryDue i => obtain ⟨t, b, _, _, rfl⟩ := step_retryDue hst; exact h.of_eq rfl rfl rfl rfl
  | tick d => rw [step_tick hst]; exact h.of_eq rfl rfl rfl rfl

/-- Induction over reachable states with the main invariants at hand. -/
theorem reachable_ind' {o : AppOpts} {P : AState → Prop} (h0 : ∀ hi lib now, P (init hi lib now))
    (hs : ∀ s l s', Inv o s → Prov s → P s → step o s l = some s' → P s') {s : AState} (hr : Reachable o s) : P s := by
  have : Inv o s ∧ Prov s ∧ P s := by
    refine reachable_induction (P := fun s => Inv o s ∧ Prov s ∧ P s)
      (fun hi lib now => ⟨inv_init o hi lib now, prov_init hi lib now, h0 hi lib now⟩) ?_ hr
    intro s l s' hp hst
    exact ⟨inv_step o s l s' hp.1 hst, prov_step o s l s' hp.1 hp.2.1 hst, hs s l s' hp.1 hp.2.1 hp.2.2 hst⟩
  exact this.2.2

theorem callers_reachable {o : AppOpts} {s : AState} (h : Reachable o s) : Callers s :=
  reachable_ind' (fun _ _ _ => List.Perm.nil) (fun s l s' hi _ hc hst => callers_step o s l s' hi hc hst) h

/-! ### Submissions -/

def inRPCOf (id : Bytes) (a : BApp) : Bool := decide (a.blk.id = id ∧ a.stage = .inRPC)

def SubInv (id : Bytes) (s : AState) : Prop :=
  submissions s.log id = verdicts s.log id + s.apps.countP (inRPCOf id)

theorem SubInv.of_eq {id : Bytes} {s s' : AState} (h : SubInv id s) (h1 : submissions s'.log id = submissions s.log id)
    (h2 : verdicts s'.log id = verdicts s.log id) (h3 : s'.apps.countP (inRPCOf id) = s.apps.countP (inRPCOf id)) :
    SubInv id s' := by
  unfold SubInv; rw [h1, h2, h3]; exact h

theorem submissions_map (rs : List Nat) (e : Option Err) (log : List Obs) (id : Bytes) :
    submissions (rs.map (fun r => Obs.answer r e) ++ log) id = submissions log id := by
  induction rs with
  | nil => rfl
  | cons r rs ih => exact ih

theorem verdicts_map (rs : List Nat) (e : Option Err) (log : List Obs) (id : Bytes) :
    verdicts (rs.map (fun r => Obs.answer r e) ++ log) id = verdicts log id := by
  induction rs with
  | nil => rfl
  | cons r rs ih => exact ih

theorem countP_set_app {l : List BApp} {i : Nat} {a a' : BApp} (h : l[i]? = some a) (p : BApp → Bool) :
    (l.set i a').countP p + (if p a then 1 else 0) = l.countP p + (if p a' then 1 else 0) := by
  obtain ⟨hi, rfl⟩ := List.getElem?_eq_some_iff.1 h
  rw [List.countP_set hi]
  have : p l[i] = true → 0 < l.countP p := fun hp => List.countP_pos_iff.2 ⟨_, List.getElem_mem hi, hp⟩
  by_cases hp : p l[i] = true
  · have := this hp
    simp only [hp, if_true]; omega
  · simp [hp]

theorem countP_eraseIdx_app {l : List BApp} {i : Nat} {a : BApp} (h : l[i]? = some a) (p : BApp → Bool) (hp : p a = false) :
    (l.eraseIdx i).countP p = l.countP p := by
  rw [(perm_eraseIdx h).countP_eq, List.countP_cons]
  simp [hp]

theorem sub_step (o : AppOpts) (id : Bytes) (s : AState) (l : Label) (s' : AState) (hinv : Inv o s) (h : SubInv id s)
    (hst : step o s l = some s') : SubInv id s' := by
  cases l with
  | applyBlock b =>
    rcases step_applyBlock hst with ⟨e, _, rfl⟩ | ⟨_, rfl⟩ <;> exact h.of_eq rfl rfl rfl
  | callerReturns r => obtain ⟨_, e, _, rfl⟩ := step_callerReturns hst; exact h.of_eq rfl rfl rfl
  | callerTimesOut r => obtain ⟨_, rfl⟩ := step_callerTimesOut hst; exact h.of_eq rfl rfl rfl
  | newBlock i =>
    obtain ⟨_, r, b, hq, rfl⟩ := step_newBlock hst
    unfold handleNewBlock
    cases ha : admission o { s with newQ := s.newQ.eraseIdx i } b with
    | some e => exact h.of_eq rfl rfl rfl
    | none =>
      simp only
      obtain ⟨m, p, hh', hf⟩ := addTables_frame { s with newQ := s.newQ.eraseIdx i } r b
      rcases addBlockEntry_cases { s with newQ := s.newQ.eraseIdx i } r b with ⟨_, he⟩ | ⟨_, _, he⟩
      · rw [he, hf]; exact h.of_eq rfl rfl rfl
      · rw [he, hf]; exact h.of_eq rfl rfl rfl
  | forkHeads heads lib =>
    obtain ⟨_, rfl⟩ := step_forkHeads hst
    rw [handleForkHeads_eq]
    obtain ⟨_, h2, _⟩ := evict_spec (heights s.lib lib)
      { s with lib := lib, watchdog := s.watchdog.purge lib, tries := s.tries ++ heads.flatMap (kids o s) }
      (hinv.idx.of_eq rfl rfl rfl)
    obtain ⟨rs, hl, _⟩ := h2.log
    refine h.of_eq ?_ ?_ ?_
    · exact (congrArg (submissions · id) hl).trans (submissions_map _ _ _ _)
    · exact (congrArg (verdicts · id) hl).trans (verdicts_map _ _ _ _)
    · exact congrArg (List.countP (inRPCOf id)) h2.apps
  | broadcast id height =>
    obtain ⟨_, rfl⟩ := step_broadcast hst
    rw [handleBroadcast_eq]; exact h.of_eq rfl rfl rfl
  | tryBlock i =>
    obtain ⟨_, b, f, ht, rfl⟩ := step_tryBlock hst
    unfold handleTry
    split
    · split <;> exact h.of_eq rfl rfl rfl
    · refine h.of_eq rfl rfl ?_
      rw [List.countP_append]
      have : inRPCOf id (beginApp o s.now b) = false := by
        unfold beginApp inRPCOf; simp only; split <;> simp
      simp [this]
  | status i =>
    obtain ⟨_, b, e, ha, rfl⟩ := step_status hst
    have hc := countP_eraseIdx_app ha (inRPCOf id) (by simp [inRPCOf])
    rcases handleStatus_cases o { s with apps := s.apps.eraseIdx i } b e with ⟨_, hs⟩ | ⟨_, _, hs⟩ | ⟨_, _, hs⟩
    · rw [hs]; exact h.of_eq rfl rfl hc
    · rw [hs]; exact h.of_eq rfl rfl hc
    · rw [hs]
      refine h.of_eq ?_ ?_ ?_
      · rw [log_remove, submissions_map]; rfl
      · rw [log_remove, verdicts_map]; rfl
      · rw [(onlyRemoved_remove _ _ _).apps]; exact hc
  | delayDone i =>
    obtain ⟨b, t, t', ha, _, rfl⟩ := step_delayDone hst
    have := countP_set_app (a' := ⟨b, .queued⟩) ha (inRPCOf id)
    refine h.of_eq rfl rfl ?_
    simpa [inRPCOf] using this
  | delayTimeout i =>
    obtain ⟨b, t, t', ha, _, rfl⟩ := step_delayTimeout hst
    have := countP_set_app (a' := ⟨b, .done none⟩) ha (inRPCOf id)
    refine h.of_eq rfl rfl ?_
    simpa [inRPCOf] using this
  | work i =>
    obtain ⟨b, ha, ⟨_, rfl⟩ | ⟨_, rfl⟩⟩ := step_work hst
    · have := countP_set_app (a' := ⟨b, .done (some (.sentinel .blockIrreversibility))⟩) ha (inRPCOf id)
      refine h.of_eq rfl rfl ?_
      simpa [inRPCOf] using this
    · have := countP_set_app (a' := ⟨b, .inRPC⟩) ha (inRPCOf id)
      unfold SubInv at h ⊢
      simp only [submissions, verdicts, List.countP_cons] at h ⊢
      by_cases hb : b.id = id
      · simp [inRPCOf, hb] at this h ⊢; omega
      · simp [inRPCOf, hb] at this h ⊢; omega
  | rpcReturn i e =>
    obtain ⟨b, ha, rfl⟩ := step_rpcReturn hst
    have := countP_set_app (a' := ⟨b, .done e⟩) ha (inRPCOf id)
    unfold SubInv at h ⊢
    simp only [submissions, verdicts, List.countP_cons] at h ⊢
    by_cases hb : b.id = id
    · simp [inRPCOf, hb] at this h ⊢; omega
    · simp [inRPCOf, hb] at this h ⊢; omega
  | retryDue i => obtain ⟨t, b, _, _, rfl⟩ := step_retryDue hst; exact h.of_eq rfl rfl rfl
  | tick d => rw [step_tick hst]; exact h.of_eq rfl rfl rfl

theorem sub_reachable {o : AppOpts} {s : AState} (h : Reachable o s) (id : Bytes) : SubInv id s :=
  reachable_ind' (fun _ _ _ => rfl) (fun s l s' hi _ hc hst => sub_step o id s l s' hi hc hst) h

theorem inRPC_le_one {o : AppOpts} {s : AState} (h : Inv o s) (id : Bytes) : s.apps.countP (inRPCOf id) ≤ 1 := by
  have h1 : s.apps.countP (inRPCOf id) ≤ s.apps.countP (fun a => decide (a.blk.id = id)) := by
    apply List.countP_mono_left
    intro a _ ha
    simp only [inRPCOf, decide_eq_true_eq] at ha ⊢
    exact ha.1
  have h2 : s.apps.countP (fun a => decide (a.blk.id = id)) = (s.apps.map (·.blk.id)).count id := by
    rw [List.count_eq_countP, List.countP_map]
    congr 1
    funext a
    by_cases h : a.blk.id = id <;> simp [h]
  have h3 := List.nodup_iff_count_le_one.1 h.nodup id
  omega

/-! ### Time -/

def maxDur : Int := 9223372036854775807

/-- What the stage of an application says about the block's time. -/
def StageTime (o : AppOpts) (T0 now : Int) (a : BApp) : Prop :=
  match a.stage with
  | .delaying t _ => goBlockTime a.blk.timestamp ≤ t + o.delayThreshold ∨ T0 + maxDur ≤ t
  | .queued | .inRPC => goBlockTime a.blk.timestamp ≤ now + o.delayThreshold ∨ T0 + maxDur ≤ now
  | .done _ => True

def TimeInv (o : AppOpts) (T0 : Int) (s : AState) : Prop := T0 ≤ s.now ∧ ∀ a ∈ s.apps, StageTime o T0 s.now a

theorem TimeInv.of_apps {o : AppOpts} {T0 : Int} {s s' : AState} (h : TimeInv o T0 s) (hn : s'.now = s.now)
    (ha : ∀ a ∈ s'.apps, a ∈ s.apps ∨ StageTime o T0 s.now a) : TimeInv o T0 s' := by
  refine ⟨by rw [hn]; exact h.1, fun a h' => ?_⟩
  rw [hn]
  rcases ha a h' with h' | h'
  · exact h.2 a h'
  · exact h'

theorem time_step (o : AppOpts) (T0 : Int) (s : AState) (l : Label) (s' : AState) (hinv : Inv o s) (h : TimeInv o T0 s)
    (hst : step o s l = some s') : TimeInv o T0 s' := by
  have hset : ∀ {i : Nat} {a' : BApp}, StageTime o T0 s.now a' → ∀ a ∈ s.apps.set i a', a ∈ s.apps ∨ StageTime o T0 s.now a := by
    intro i a' ha' a ha
    rcases List.mem_or_eq_of_mem_set ha with ha | rfl
    · exact Or.inl ha
    · exact Or.inr ha'
  cases l with
  | applyBlock b =>
    rcases step_applyBlock hst with ⟨e, _, rfl⟩ | ⟨_, rfl⟩ <;> exact h.of_apps rfl fun a ha => Or.inl ha
  | callerReturns r => obtain ⟨_, e, _, rfl⟩ := step_callerReturns hst; exact h.of_apps rfl fun a ha => Or.inl ha
  | callerTimesOut r => obtain ⟨_, rfl⟩ := step_callerTimesOut hst; exact h.of_apps rfl fun a ha => Or.inl ha
  | newBlock i =>
    obtain ⟨_, r, b, hq, rfl⟩ := step_newBlock hst
    unfold handleNewBlock
    cases ha : admission o { s with newQ := s.newQ.eraseIdx i } b with
    | some e => exact h.of_apps rfl fun a ha => Or.inl ha
    | none =>
      simp only
      obtain ⟨m, p, hh', hf⟩ := addTables_frame { s with newQ := s.newQ.eraseIdx i } r b
      rcases addBlockEntry_cases { s with newQ := s.newQ.eraseIdx i } r b with ⟨_, he⟩ | ⟨_, _, he⟩
      · rw [he, hf]; exact h.of_apps rfl fun a ha => Or.inl ha
      · rw [he, hf]; exact h.of_apps rfl fun a ha => Or.inl ha
  | forkHeads heads lib =>
    obtain ⟨_, rfl⟩ := step_forkHeads hst
    rw [handleForkHeads_eq]
    obtain ⟨_, h2, _⟩ := evict_spec (heights s.lib lib)
      { s with lib := lib, watchdog := s.watchdog.purge lib, tries := s.tries ++ heads.flatMap (kids o s) }
      (hinv.idx.of_eq rfl rfl rfl)
    refine h.of_apps h2.now fun a ha => Or.inl ?_
    have := h2.apps
    simp only at this ha
    rw [this] at ha
    exact ha
  | broadcast id height =>
    obtain ⟨_, rfl⟩ := step_broadcast hst
    rw [handleBroadcast_eq]; exact h.of_apps rfl fun a ha => Or.inl ha
  | tryBlock i =>
    obtain ⟨_, b, f, ht, rfl⟩ := step_tryBlock hst
    unfold handleTry
    split
    · split <;> exact h.of_apps rfl fun a ha => Or.inl ha
    · refine h.of_apps rfl fun a ha => ?_
      rcases List.mem_append.1 ha with ha | ha
      · exact Or.inl ha
      · right
        simp only [List.mem_singleton] at ha
        subst ha
        have h0 := h.1
        unfold beginApp
        simp only
        split
        · rename_i hgt
          simp only [StageTime]
          unfold satDur maxDur
          omega
        · rename_i hgt
          simp only [StageTime]
          left; omega
  | status i =>
    obtain ⟨_, b, e, ha, rfl⟩ := step_status hst
    have hap : ∀ x ∈ s.apps.eraseIdx i, x ∈ s.apps := fun x hx => List.mem_of_mem_eraseIdx hx
    rcases handleStatus_cases o { s with apps := s.apps.eraseIdx i } b e with ⟨_, hs⟩ | ⟨_, _, hs⟩ | ⟨_, _, hs⟩
    · rw [hs]; exact h.of_apps rfl fun a ha => Or.inl (hap a ha)
    · rw [hs]; exact h.of_apps rfl fun a ha => Or.inl (hap a ha)
    · rw [hs]
      refine h.of_apps (onlyRemoved_remove _ _ _).now fun a ha => Or.inl ?_
      rw [(onlyRemoved_remove _ _ _).apps] at ha
      exact hap a ha
  | delayDone i =>
    obtain ⟨b, t, t', ha, ht, rfl⟩ := step_delayDone hst
    refine h.of_apps rfl (hset ?_)
    have := h.2 _ (mem_of_getElem? ha)
    simp only [StageTime] at this ⊢
    omega
  | delayTimeout i =>
    obtain ⟨b, t, t', ha, _, rfl⟩ := step_delayTimeout hst
    exact h.of_apps rfl (hset trivial)
  | work i =>
    obtain ⟨b, ha, ⟨_, rfl⟩ | ⟨_, rfl⟩⟩ := step_work hst
    · exact h.of_apps rfl (hset trivial)
    · refine h.of_apps rfl (hset ?_)
      have := h.2 _ (mem_of_getElem? ha)
      simpa only [StageTime] using this
  | rpcReturn i e =>
    obtain ⟨b, ha, rfl⟩ := step_rpcReturn hst
    exact h.of_apps rfl (hset trivial)
  | retryDue i => obtain ⟨t, b, _, _, rfl⟩ := step_retryDue hst; exact h.of_apps rfl fun a ha => Or.inl ha
  | tick d =>
    rw [step_tick hst]
    refine ⟨by have := h.1; simp only; omega, fun a ha => ?_⟩
    have := h.2 a ha
    unfold StageTime at this ⊢
    split <;> rename_i hs <;> rw [hs] at this <;> simp only at this ⊢ <;> first | omega | skip

theorem time_run {o : AppOpts} {hi lib : UInt64} {T0 : Int} {ls : List Label} {s : AState}
    (hr : run o (init hi lib T0) ls = some s) : TimeInv o T0 s := by
  have : Inv o s ∧ TimeInv o T0 s := by
    refine run_induction (P := fun s => Inv o s ∧ TimeInv o T0 s) ⟨inv_init _ _ _ _, Int.le_refl _, by simp [init]⟩ ?_ hr
    intro s l s' hp hst
    exact ⟨inv_step o s l s' hp.1 hst, time_step o T0 s l s' hp.1 hp.2 hst⟩
  exact this.2

/-! ### Parking -/

def ParkInv (s : AState) : Prop := ∀ id x, s.byId.get id = some x →
  (∃ t ∈ s.tries, t.1.id = id) ∨ s.pending.has id = true ∨ Parked s.log id

theorem parked_map (rs : List Nat) (e : Option Err) (log : List Obs) (id : Bytes) :
    Parked (rs.map (fun r => Obs.answer r e) ++ log) id = Parked log id := by
  have : lastStop (rs.map (fun r => Obs.answer r e) ++ log) id = lastStop log id := by
    induction rs with
    | nil => rfl
    | cons r rs ih => exact ih
  unfold Parked; rw [this]

theorem ParkInv.of_sub {s s' : AState} (h : ParkInv s) (h1 : ∀ id x, s'.byId.get id = some x → ∃ y, s.byId.get id = some y)
    (h2 : ∀ t ∈ s.tries, t ∈ s'.tries) (h3 : s'.pending = s.pending)
    (h4 : ∀ id, Parked s'.log id = Parked s.log id) : ParkInv s' := by
  intro id x hx
  obtain ⟨y, hy⟩ := h1 id x hx
  rw [h3, h4]
  rcases h id y hy with ⟨t, ht, hid⟩ | hp
  · exact Or.inl ⟨t, h2 t ht, hid⟩
  · exact Or.inr hp

theorem park_step (o : AppOpts) (s : AState) (l : Label) (s' : AState) (hinv : Inv o s) (h : ParkInv s)
    (hst : step o s l = some s') : ParkInv s' := by
  cases l with
  | applyBlock b =>
    rcases step_applyBlock hst with ⟨e, _, rfl⟩ | ⟨_, rfl⟩ <;>
      exact h.of_sub (fun id x hx => ⟨x, hx⟩) (fun _ h => h) rfl fun _ => rfl
  | callerReturns r =>
    obtain ⟨_, e, _, rfl⟩ := step_callerReturns hst
    exact h.of_sub (fun id x hx => ⟨x, hx⟩) (fun _ h => h) rfl fun _ => rfl
  | callerTimesOut r =>
    obtain ⟨_, rfl⟩ := step_callerTimesOut hst
    exact h.of_sub (fun id x hx => ⟨x, hx⟩) (fun _ h => h) rfl fun _ => rfl
  | newBlock i =>
    obtain ⟨_, r, b, hq, rfl⟩ := step_newBlock hst
    unfold handleNewBlock
    cases ha : admission o { s with newQ := s.newQ.eraseIdx i } b with
    | some e => exact h.of_sub (fun id x hx => ⟨x, hx⟩) (fun _ h => h) rfl fun _ => rfl
    | none =>
      simp only
      have hg := get_addTables { s with newQ := s.newQ.eraseIdx i } r b
      obtain ⟨m, p, hh', hf⟩ := addTables_frame { s with newQ := s.newQ.eraseIdx i } r b
      rcases addBlockEntry_cases { s with newQ := s.newQ.eraseIdx i } r b with ⟨_, he⟩ | ⟨_, _, he⟩
      · rw [he]
        intro id x hx
        by_cases hid : id = b.id
        · subst hid
          right; right
          simp [Parked, lastStop]
        · have hx' := hx
          simp only at hx'
          rw [hg, if_neg hid] at hx'
          have hpk : Parked (Obs.deferred b :: s.log) id = Parked s.log id := by
            have : lastStop (Obs.deferred b :: s.log) id = lastStop s.log id := by
              unfold lastStop
              rw [List.find?_cons_of_neg]
              simpa using fun e => hid e.symm
            unfold Parked; rw [this]
          rw [hf]
          simp only
          rw [hpk]
          exact h id x hx'
      · rw [he]
        intro id x hx
        by_cases hid : id = b.id
        · subst hid
          left
          exact ⟨(b, false), by simp, rfl⟩
        · have hx' := hx
          simp only at hx'
          rw [hg, if_neg hid] at hx'
          rw [hf]
          simp only
          rcases h id x hx' with ⟨t, ht, ht'⟩ | hp
          · exact Or.inl ⟨t, by simp [ht], ht'⟩
          · exact Or.inr hp
  | forkHeads heads lib =>
    obtain ⟨_, rfl⟩ := step_forkHeads hst
    rw [handleForkHeads_eq]
    obtain ⟨_, h2, h3⟩ := evict_spec (heights s.lib lib)
      { s with lib := lib, watchdog := s.watchdog.purge lib, tries := s.tries ++ heads.flatMap (kids o s) }
      (hinv.idx.of_eq rfl rfl rfl)
    obtain ⟨rs, hl, _⟩ := h2.log
    refine h.of_sub ?_ ?_ h2.pending ?_
    · intro id x hx
      have hx' := (h3 id).symm.trans hx
      simp only at hx'
      cases hk : s.byId.get id with
      | none => rw [hk] at hx'; cases hx'
      | some y => exact ⟨y, rfl⟩
    · intro t ht
      have := h2.tries
      simp only at this ⊢
      rw [this]
      exact List.mem_append_left _ ht
    · intro id
      exact (congrArg (Parked · id) hl).trans (parked_map _ _ _ _)
  | broadcast id height =>
    obtain ⟨_, rfl⟩ := step_broadcast hst
    rw [handleBroadcast_eq]
    exact h.of_sub (fun id x hx => ⟨x, hx⟩) (fun _ h => List.mem_append_left _ h) rfl fun _ => rfl
  | tryBlock i =>
    obtain ⟨_, b, f, ht, rfl⟩ := step_tryBlock hst
    have hpm := perm_eraseIdx ht
    have key : ∀ s' : AState, s'.byId = s.byId → s'.tries = s.tries.eraseIdx i →
        (∀ id, s.pending.has id = true → s'.pending.has id = true) → s'.pending.has b.id = true →
        (∀ id, Parked s'.log id = Parked s.log id) → ParkInv s' := by
      intro s' e1 e2 e3 e4 e5 id x hx
      rw [e1] at hx
      rw [e5, e2]
      rcases h id x hx with ⟨t, ht', hid⟩ | hp | hp
      · rw [hpm.mem_iff, List.mem_cons] at ht'
        rcases ht' with rfl | ht'
        · right; left; rw [← hid]; exact e4
        · exact Or.inl ⟨t, ht', hid⟩
      · exact Or.inr (Or.inl (e3 _ hp))
      · exact Or.inr (Or.inr hp)
    unfold handleTry
    split
    · rename_i hp
      split
      · exact key _ rfl rfl (fun _ h => h) hp fun _ => rfl
      · exact key _ rfl rfl (fun _ h => h) hp fun _ => rfl
    · refine key _ rfl rfl (fun id h => ?_) ?_ fun _ => rfl
      · simp [h]
      · simp
  | status i =>
    obtain ⟨_, b, e, ha, rfl⟩ := step_status hst
    have hpk : ∀ id, id ≠ b.id → Parked (Obs.status b e :: s.log) id = Parked s.log id := by
      intro id hid
      have : lastStop (Obs.status b e :: s.log) id = lastStop s.log id := by
        unfold lastStop
        rw [List.find?_cons_of_neg]
        simpa using fun e => hid e.symm
      unfold Parked; rw [this]
    have other : ∀ (tr : List (Blk × Bool)), (∀ t ∈ s.tries, t ∈ tr) → ∀ id x, id ≠ b.id → s.byId.get id = some x →
        (∃ t ∈ tr, t.1.id = id) ∨ (s.pending.del b.id).has id = true ∨ Parked (Obs.status b e :: s.log) id := by
      intro tr htr id x hid hx
      rw [hpk id hid, GoMap.has_del]
      rcases h id x hx with ⟨t, ht, hid'⟩ | hp | hp
      · exact Or.inl ⟨t, htr t ht, hid'⟩
      · right; left; simp [hid, hp]
      · exact Or.inr (Or.inr hp)
    rcases handleStatus_cases o { s with apps := s.apps.eraseIdx i } b e with ⟨_, hs⟩ | ⟨_, hu, hs⟩ | ⟨_, _, hs⟩
    · rw [hs]
      intro id x hx
      by_cases hid : id = b.id
      · subst hid
        exact Or.inl ⟨(b, false), by simp [trySend], rfl⟩
      · exact other _ (fun t ht => by simp [trySend, afterStatus, ht]) id x hid hx
    · rw [hs]
      intro id x hx
      by_cases hid : id = b.id
      · subst hid
        right; right
        simp [afterStatus, Parked, lastStop, hu]
      · exact other _ (fun t ht => ht) id x hid hx
    · rw [hs]
      intro id x hx
      rw [get_remove] at hx
      split at hx
      · cases hx
      · rename_i hid
        rw [(onlyRemoved_remove _ _ _).tries, (onlyRemoved_remove _ _ _).pending, log_remove, parked_map]
        exact other _ (fun t ht => by simp [ht]) id x hid hx
  | delayDone i =>
    obtain ⟨b, t, t', ha, _, rfl⟩ := step_delayDone hst
    exact h.of_sub (fun id x hx => ⟨x, hx⟩) (fun _ h => h) rfl fun _ => rfl
  | delayTimeout i =>
    obtain ⟨b, t, t', ha, _, rfl⟩ := step_delayTimeout hst
    exact h.of_sub (fun id x hx => ⟨x, hx⟩) (fun _ h => h) rfl fun _ => rfl
  | work i =>
    obtain ⟨b, ha, ⟨_, rfl⟩ | ⟨_, rfl⟩⟩ := step_work hst <;>
      exact h.of_sub (fun id x hx => ⟨x, hx⟩) (fun _ h => h) rfl fun _ => rfl
  | rpcReturn i e =>
    obtain ⟨b, ha, rfl⟩ := step_rpcReturn hst
    exact h.of_sub (fun id x hx => ⟨x, hx⟩) (fun _ h => h) rfl fun _ => rfl
  | retryDue i =>
    obtain ⟨t, b, _, _, rfl⟩ := step_retryDue hst
    exact h.of_sub (fun id x hx => ⟨x, hx⟩) (fun _ h => by simp [trySend, h]) rfl fun _ => rfl
  | tick d =>
    rw [step_tick hst]
    exact h.of_sub (fun id x hx => ⟨x, hx⟩) (fun _ h => h) rfl fun _ => rfl

theorem park_reachable {o : AppOpts} {s : AState} (h : Reachable o s) : ParkInv s :=
  reachable_ind' (fun _ _ _ => by intro id x hx; simp [init] at hx) (fun s l s' hi _ hc hst => park_step o s l s' hi hc hst) h

/-! ### Scheduling -/

theorem mem_kids {o : AppOpts} {s : AState} (hi : Idx s) (id : Bytes) (x : Blk × Bool) :
    x ∈ kids o s id ↔ Waiting s x.1 ∧ x.1.previous = id ∧ x.2 = forceFor o s.now x.1 := by
  unfold kids
  constructor
  · intro h
    split at h
    · cases h
    · rename_i ch hch
      obtain ⟨k, hk, hx⟩ := List.mem_filterMap.1 h
      obtain ⟨e, he, rfl⟩ := Option.map_eq_some_iff.1 hx
      obtain ⟨e', he', hp⟩ := (hi.prev.mem id k).1 ⟨ch, hch, (GoMap.mem_keys _ _).1 hk⟩
      rw [he] at he'; cases he'
      exact ⟨⟨e, by rw [hi.key k e he]; exact he, rfl⟩, hp, rfl⟩
  · rintro ⟨⟨e, he, hb⟩, hp, hf⟩
    obtain ⟨ch, hch, hm⟩ := (hi.prev.mem id x.1.id).2 ⟨e, he, by rw [hb]; exact hp⟩
    rw [hch]
    simp only
    refine List.mem_filterMap.2 ⟨x.1.id, (GoMap.mem_keys _ _).2 hm, ?_⟩
    rw [he, Option.map_some, hb, ← hf]

theorem kids_nodup {o : AppOpts} {s : AState} (hi : Idx s) (id : Bytes) : (kids o s id).Nodup := by
  unfold kids
  split
  · simp
  · rename_i ch hch
    refine List.Nodup.filterMap ?_ ch.keys_nodup
    intro k k' x hk hk'
    obtain ⟨e, he, rfl⟩ := Option.map_eq_some_iff.1 hk
    obtain ⟨e', he', hx⟩ := Option.map_eq_some_iff.1 hk'
    rw [← hi.key k e he, ← hi.key k' e' he']
    rw [Prod.mk.injEq] at hx
    rw [hx.1]

theorem waitingBlocks_nodup {s : AState} (hi : Idx s) : (waitingBlocks s).Nodup := by
  have : (waitingBlocks s).map (·.id) = s.byId.keys := by
    unfold waitingBlocks GoMap.keys
    rw [List.map_map]
    apply List.map_congr_left
    rintro ⟨k, x⟩ hx
    exact hi.key k x ((GoMap.get_eq_some_iff _ _ _).2 hx)
  exact List.Nodup.of_map _ (by rw [this]; exact s.byId.keys_nodup)

theorem mem_waitingBlocks {s : AState} (hi : Idx s) (b : Blk) : b ∈ waitingBlocks s ↔ Waiting s b := by
  unfold waitingBlocks Waiting
  constructor
  · intro h
    obtain ⟨⟨k, x⟩, hx, rfl⟩ := List.mem_map.1 h
    have hg := (GoMap.get_eq_some_iff _ _ _).2 hx
    exact ⟨x, by rw [hi.key k x hg]; exact hg, rfl⟩
  · rintro ⟨x, hx, rfl⟩
    exact List.mem_map.2 ⟨(_, x), (GoMap.get_eq_some_iff _ _ _).1 hx, rfl⟩

theorem kids_perm {o : AppOpts} {s : AState} (hi : Idx s) (id : Bytes) :
    (kids o s id).Perm (((waitingBlocks s).filter fun b => decide (b.previous = id)).map
      fun b => (b, forceFor o s.now b)) := by
  rw [List.perm_ext_iff_of_nodup (kids_nodup hi id)]
  · intro x
    rw [mem_kids hi]
    simp only [List.mem_map, List.mem_filter, decide_eq_true_eq, mem_waitingBlocks hi]
    constructor
    · rintro ⟨h1, h2, h3⟩; exact ⟨x.1, ⟨h1, h2⟩, by rw [← h3]⟩
    · rintro ⟨b, ⟨h1, h2⟩, rfl⟩; exact ⟨h1, h2, rfl⟩
  · refine List.Nodup.map ?_ ((waitingBlocks_nodup hi).filter _)
    intro a b hab; exact (Prod.mk.inj hab).1
/-! ### Counting schedulings -/

/-- How many tokens for `b` are under way. -/
def tokensOf (b : Blk) (s : AState) : Nat :=
  starts s.log b + s.tries.countP (fun x => decide (x.1 = b)) + s.retries.countP (fun x => decide (x.2 = b))

theorem starts_map (rs : List Nat) (e : Option Err) (log : List Obs) (b : Blk) :
    starts (rs.map (fun r => Obs.answer r e) ++ log) b = starts log b := by
  induction rs with
  | nil => rfl
  | cons r rs ih => exact ih

theorem countP_kids {o : AppOpts} {s : AState} (hi : Idx s) (id : Bytes) (b : Blk) :
    (kids o s id).countP (fun x => decide (x.1 = b)) = if b ∈ waitingBlocks s ∧ b.previous = id then 1 else 0 := by
  rw [(kids_perm hi id).countP_eq, List.countP_map]
  have : ((fun x : Blk × Bool => decide (x.1 = b)) ∘ fun b => (b, forceFor o s.now b)) = fun x => x == b := by
    funext x; simp only [Function.comp]; by_cases h : x = b <;> simp [h]
  rw [this, ← List.count_eq_countP]
  split
  · rename_i h
    exact List.count_eq_one_of_mem ((waitingBlocks_nodup hi).filter _) (by simp [List.mem_filter, h.1, h.2])
  · rename_i h
    rw [List.count_eq_zero]
    intro hm
    rw [List.mem_filter] at hm
    exact h ⟨hm.1, by simpa using hm.2⟩

theorem countP_flatMap_kids {o : AppOpts} {s : AState} (hi : Idx s) (heads : List Bytes) (b : Blk) :
    (heads.flatMap (kids o s)).countP (fun x => decide (x.1 = b)) =
      if b ∈ waitingBlocks s then heads.count b.previous else 0 := by
  induction heads with
  | nil => simp
  | cons x l ih =>
    rw [List.flatMap_cons, List.countP_append, countP_kids hi, ih]
    by_cases hb : b ∈ waitingBlocks s
    · simp only [hb, true_and, if_true, List.count_cons]
      by_cases hx : b.previous = x
      · simp [hx]; omega
      · rw [if_neg hx, if_neg (by simpa using fun e => hx e.symm)]; omega
    · simp [hb]

theorem countP_eraseIdx_add {α : Type} {l : List α} {i : Nat} {x : α} (h : l[i]? = some x) (p : α → Bool) :
    (l.eraseIdx i).countP p + (if p x then 1 else 0) = l.countP p := by
  rw [(perm_eraseIdx h).countP_eq, List.countP_cons]

theorem tokens_step (o : AppOpts) (s : AState) (l : Label) (s' : AState) (b : Blk) (hinv : Inv o s)
    (hst : step o s l = some s') : tokensOf b s' ≤ tokensOf b s + grants o s l b := by
  cases l with
  | applyBlock c =>
    rcases step_applyBlock hst with ⟨e, _, rfl⟩ | ⟨_, rfl⟩ <;> exact Nat.le_add_right _ _
  | callerReturns r => obtain ⟨_, e, _, rfl⟩ := step_callerReturns hst; exact Nat.le_add_right _ _
  | callerTimesOut r => obtain ⟨_, rfl⟩ := step_callerTimesOut hst; exact Nat.le_add_right _ _
  | newBlock i =>
    obtain ⟨_, r, c, hq, rfl⟩ := step_newBlock hst
    unfold handleNewBlock
    cases ha : admission o { s with newQ := s.newQ.eraseIdx i } c with
    | some e => exact Nat.le_add_right _ _
    | none =>
      simp only
      obtain ⟨m, p, hh', hf⟩ := addTables_frame { s with newQ := s.newQ.eraseIdx i } r c
      rcases addBlockEntry_cases { s with newQ := s.newQ.eraseIdx i } r c with ⟨_, he⟩ | ⟨h1, h2, he⟩
      · rw [he, hf]; exact Nat.le_add_right _ _
      · rw [he, hf]
        simp only at h1 h2
        have hg : grants o s (.newBlock i) b = if c = b then 1 else 0 := by
          simp only [grants, hq]
          have hh1 : c.height.toNat ≤ s.highest.toNat + 1 := by
            have := UInt64.not_lt.1 h1
            rw [UInt64.le_iff_toNat_le, UInt64.toNat_add] at this
            simp only [UInt64.toNat_one] at this
            have := Nat.mod_le (s.highest.toNat + 1) (2 ^ 64)
            omega
          have hh2 : ¬ ∃ a ∈ s.apps, a.blk.id = c.previous := by
            intro h
            have := (hinv.pend c.previous).2 (List.mem_map.2 h)
            rw [h2] at this; cases this
          simp only [hh1, hh2, not_false_eq_true, and_true]
        rw [hg]
        simp only [tokensOf, List.countP_append, List.countP_cons, List.countP_nil]
        by_cases hcb : c = b
        · simp [hcb]; omega
        · simp [hcb]
  | forkHeads heads lib =>
    obtain ⟨_, rfl⟩ := step_forkHeads hst
    rw [handleForkHeads_eq]
    obtain ⟨_, h2, _⟩ := evict_spec (heights s.lib lib)
      { s with lib := lib, watchdog := s.watchdog.purge lib, tries := s.tries ++ heads.flatMap (kids o s) }
      (hinv.idx.of_eq rfl rfl rfl)
    obtain ⟨rs, hl, _⟩ := h2.log
    have e1 := h2.tries
    have e2 := h2.retries
    simp only at hl e1 e2
    simp only [tokensOf, hl, e1, e2, starts_map, List.countP_append, countP_flatMap_kids hinv.idx, grants]
    omega
  | broadcast id height =>
    obtain ⟨_, rfl⟩ := step_broadcast hst
    rw [handleBroadcast_eq]
    simp only [tokensOf, List.countP_append, countP_kids hinv.idx, grants]
    omega
  | tryBlock i =>
    obtain ⟨_, c, f, ht, rfl⟩ := step_tryBlock hst
    have h1 := countP_eraseIdx_add ht (fun x => decide (x.1 = b))
    refine Nat.le_trans ?_ (Nat.le_add_right _ _)
    unfold handleTry
    simp only [tokensOf] at h1 ⊢
    split
    · split
      · simp only [List.countP_append, List.countP_cons, List.countP_nil]; omega
      · simp only; omega
    · simp only [starts, List.countP_cons]; omega
  | status i =>
    obtain ⟨_, c, e, ha, rfl⟩ := step_status hst
    have hidx' : Idx { s with apps := s.apps.eraseIdx i } := hinv.idx.of_eq rfl rfl rfl
    rcases handleStatus_cases o { s with apps := s.apps.eraseIdx i } c e with ⟨hb, hs⟩ | ⟨hb, hu, hs⟩ | ⟨hb, hu, hs⟩
    · rw [hs]
      simp only [grants, ha, hb, if_true]
      simp only [tokensOf, trySend, afterStatus, List.countP_append, List.countP_cons, List.countP_nil, starts]
      by_cases hcb : c = b
      · simp [hcb]; omega
      · simp [hcb]
    · rw [hs]; exact Nat.le_add_right _ _
    · rw [hs]
      simp only [tokensOf, log_remove, starts_map, (onlyRemoved_remove _ _ _).tries, (onlyRemoved_remove _ _ _).retries]
      simp only [grants, ha, hb, Bool.false_eq_true, if_false, List.countP_append]
      have hw : (wakes o { s with apps := s.apps.eraseIdx i } c e).countP (fun x => decide (x.1 = b)) ≤
          if e = none ∧ b ∈ waitingBlocks s ∧ b.previous = c.id then 1 else 0 := by
        unfold wakes
        by_cases he : e = none
        · rw [if_pos he, countP_kids hidx']
          simp only [he, true_and]
          exact Nat.le_refl _
        · rw [if_neg he]; simp
      have hst : starts (afterStatus { s with apps := s.apps.eraseIdx i } c e).log b = starts s.log b := rfl
      have hrt : (afterStatus { s with apps := s.apps.eraseIdx i } c e).retries = s.retries := rfl
      rw [hst, hrt]
      omega
  | delayDone i => obtain ⟨c, t, t', ha, _, rfl⟩ := step_delayDone hst; exact Nat.le_add_right _ _
  | delayTimeout i => obtain ⟨c, t, t', ha, _, rfl⟩ := step_delayTimeout hst; exact Nat.le_add_right _ _
  | work i => obtain ⟨c, ha, ⟨_, rfl⟩ | ⟨_, rfl⟩⟩ := step_work hst <;> exact Nat.le_add_right _ _
  | rpcReturn i e => obtain ⟨c, ha, rfl⟩ := step_rpcReturn hst; exact Nat.le_add_right _ _
  | retryDue i =>
    obtain ⟨t, c, hr, _, rfl⟩ := step_retryDue hst
    have h1 := countP_eraseIdx_add hr (fun x => decide (x.2 = b))
    refine Nat.le_trans ?_ (Nat.le_add_right _ _)
    simp only [tokensOf, trySend, List.countP_append, List.countP_cons, List.countP_nil] at h1 ⊢
    omega
  | tick d => rw [step_tick hst]; exact Nat.le_add_right _ _

theorem granted_append (o : AppOpts) (s : AState) (ls : List Label) (l : Label) (b : Blk) (s1 s2 : AState)
    (h1 : run o s ls = some s1) (h2 : step o s1 l = some s2) :
    granted o s (ls ++ [l]) b = granted o s ls b + grants o s1 l b := by
  induction ls generalizing s with
  | nil => cases h1; simp [granted, h2]
  | cons x ls ih =>
    simp only [run] at h1
    cases hx : step o s x with
    | none => rw [hx] at h1; cases h1
    | some t =>
      rw [hx] at h1
      simp only [List.cons_append, granted, hx, ih t h1]
      exact (Nat.add_assoc _ _ _).symm

theorem tokens_run {o : AppOpts} {hi lib : UInt64} {T0 : Int} {ls : List Label} {s : AState} (b : Blk)
    (hr : run o (init hi lib T0) ls = some s) : Inv o s ∧ tokensOf b s ≤ granted o (init hi lib T0) ls b := by
  induction ls using List.reverseRecOn generalizing s with
  | nil => cases hr; exact ⟨inv_init _ _ _ _, Nat.zero_le _⟩
  | append_singleton ls l ih =>
    obtain ⟨s1, h1, h2⟩ := run_snoc hr
    obtain ⟨hi1, ht⟩ := ih h1
    refine ⟨inv_step o s1 l s hi1 h2, ?_⟩
    rw [granted_append o _ ls l b s1 s h1 h2]
    have := tokens_step o s1 l s b hi1 h2
    omega

/-- Applications of `b` that have not reached the chain yet. -/
def early (b : Blk) (a : BApp) : Bool := decide (a.blk = b) && match a.stage with
  | .delaying _ _ => true
  | .queued => true
  | _ => false

def StartInv (b : Blk) (s : AState) : Prop := submitsOf s.log b + s.apps.countP (early b) ≤ starts s.log b

theorem submitsOf_map (rs : List Nat) (e : Option Err) (log : List Obs) (b : Blk) :
    submitsOf (rs.map (fun r => Obs.answer r e) ++ log) b = submitsOf log b := by
  induction rs with
  | nil => rfl
  | cons r rs ih => exact ih

theorem StartInv.of_le {b : Blk} {s s' : AState} (h : StartInv b s) (h1 : submitsOf s'.log b = submitsOf s.log b)
    (h2 : starts s'.log b = starts s.log b) (h3 : s'.apps.countP (early b) ≤ s.apps.countP (early b)) :
    StartInv b s' := by
  unfold StartInv at h ⊢; omega

theorem start_step (o : AppOpts) (b : Blk) (s : AState) (l : Label) (s' : AState) (hinv : Inv o s) (h : StartInv b s)
    (hst : step o s l = some s') : StartInv b s' := by
  have hset : ∀ {i : Nat} {a a' : BApp}, s.apps[i]? = some a → (early b a' = true → early b a = true) →
      (s.apps.set i a').countP (early b) ≤ s.apps.countP (early b) := by
    intro i a a' ha hi
    have := countP_set_app (a' := a') ha (early b)
    by_cases h' : early b a' = true
    · simp only [h', hi h', if_true] at this; omega
    · simp only [h', Bool.false_eq_true, if_false] at this; omega
  cases l with
  | applyBlock c =>
    rcases step_applyBlock hst with ⟨e, _, rfl⟩ | ⟨_, rfl⟩ <;> exact h.of_le rfl rfl (Nat.le_refl _)
  | callerReturns r => obtain ⟨_, e, _, rfl⟩ := step_callerReturns hst; exact h.of_le rfl rfl (Nat.le_refl _)
  | callerTimesOut r => obtain ⟨_, rfl⟩ := step_callerTimesOut hst; exact h.of_le rfl rfl (Nat.le_refl _)
  | newBlock i =>
    obtain ⟨_, r, c, hq, rfl⟩ := step_newBlock hst
    unfold handleNewBlock
    cases ha : admission o { s with newQ := s.newQ.eraseIdx i } c with
    | some e => exact h.of_le rfl rfl (Nat.le_refl _)
    | none =>
      simp only
      obtain ⟨m, p, hh', hf⟩ := addTables_frame { s with newQ := s.newQ.eraseIdx i } r c
      rcases addBlockEntry_cases { s with newQ := s.newQ.eraseIdx i } r c with ⟨_, he⟩ | ⟨_, _, he⟩
      · rw [he, hf]; exact h.of_le rfl rfl (Nat.le_refl _)
      · rw [he, hf]; exact h.of_le rfl rfl (Nat.le_refl _)
  | forkHeads heads lib =>
    obtain ⟨_, rfl⟩ := step_forkHeads hst
    rw [handleForkHeads_eq]
    obtain ⟨_, h2, _⟩ := evict_spec (heights s.lib lib)
      { s with lib := lib, watchdog := s.watchdog.purge lib, tries := s.tries ++ heads.flatMap (kids o s) }
      (hinv.idx.of_eq rfl rfl rfl)
    obtain ⟨rs, hl, _⟩ := h2.log
    refine h.of_le ?_ ?_ (Nat.le_of_eq (congrArg (List.countP (early b)) h2.apps))
    · exact (congrArg (submitsOf · b) hl).trans (submitsOf_map _ _ _ _)
    · exact (congrArg (starts · b) hl).trans (starts_map _ _ _ _)
  | broadcast id height =>
    obtain ⟨_, rfl⟩ := step_broadcast hst
    rw [handleBroadcast_eq]; exact h.of_le rfl rfl (Nat.le_refl _)
  | tryBlock i =>
    obtain ⟨_, c, f, ht, rfl⟩ := step_tryBlock hst
    unfold handleTry
    split
    · split <;> exact h.of_le rfl rfl (Nat.le_refl _)
    · unfold StartInv at h ⊢
      have hsub : submitsOf (Obs.start c :: s.log) b = submitsOf s.log b := rfl
      simp only [hsub, List.countP_append, List.countP_cons, List.countP_nil, starts] at h ⊢
      by_cases hcb : c = b
      · simp only [hcb, decide_true, if_true]
        have : (if early b (beginApp o s.now b) = true then 1 else 0) ≤ 1 := by split <;> omega
        omega
      · have : early b (beginApp o s.now c) = false := by
          unfold early beginApp
          simp only
          split <;> simp [hcb]
        simp only [this, Bool.false_eq_true, if_false]
        omega
  | status i =>
    obtain ⟨_, c, e, ha, rfl⟩ := step_status hst
    have hc := Nat.le_of_eq (countP_eraseIdx_app ha (early b) (by simp [early]))
    rcases handleStatus_cases o { s with apps := s.apps.eraseIdx i } c e with ⟨_, hs⟩ | ⟨_, _, hs⟩ | ⟨_, _, hs⟩
    · rw [hs]; exact h.of_le rfl rfl hc
    · rw [hs]; exact h.of_le rfl rfl hc
    · rw [hs]
      refine h.of_le ?_ ?_ ?_
      · rw [log_remove, submitsOf_map]; rfl
      · rw [log_remove, starts_map]; rfl
      · rw [(onlyRemoved_remove _ _ _).apps]; exact hc
  | delayDone i =>
    obtain ⟨c, t, t', ha, _, rfl⟩ := step_delayDone hst
    exact h.of_le rfl rfl (hset ha (by simp [early]))
  | delayTimeout i =>
    obtain ⟨c, t, t', ha, _, rfl⟩ := step_delayTimeout hst
    exact h.of_le rfl rfl (hset ha (by simp [early]))
  | work i =>
    obtain ⟨c, ha, ⟨_, rfl⟩ | ⟨_, rfl⟩⟩ := step_work hst
    · exact h.of_le rfl rfl (hset ha (by simp [early]))
    · have := countP_set_app (a' := ⟨c, .inRPC⟩) ha (early b)
      unfold StartInv at h ⊢
      have hs : starts (Obs.submit c :: s.log) b = starts s.log b := rfl
      simp only [hs, submitsOf, List.countP_cons] at h ⊢
      have e1 : early b ⟨c, .inRPC⟩ = false := by simp [early]
      have e2 : early b ⟨c, .queued⟩ = decide (c = b) := by simp [early]
      rw [e1, e2] at this
      simp only [Bool.false_eq_true, if_false] at this
      omega
  | rpcReturn i e =>
    obtain ⟨c, ha, rfl⟩ := step_rpcReturn hst
    exact h.of_le rfl rfl (hset ha (by simp [early]))
  | retryDue i => obtain ⟨t, c, _, _, rfl⟩ := step_retryDue hst; exact h.of_le rfl rfl (Nat.le_refl _)
  | tick d => rw [step_tick hst]; exact h.of_le rfl rfl (Nat.le_refl _)

theorem start_reachable {o : AppOpts} {s : AState} (h : Reachable o s) (b : Blk) : StartInv b s :=
  reachable_ind' (fun _ _ _ => Nat.le_refl _) (fun s l s' hi _ hc hst => start_step o b s l s' hi hc hst) h

/-- Every block on its way to the chain was once scheduled for a proper reason. -/
structure SchedInv (o : AppOpts) (s0 : AState) (ls : List Label) (s : AState) : Prop where
  tries : ∀ x ∈ s.tries, EverJustified o s0 ls x.1
  retries : ∀ x ∈ s.retries, EverJustified o s0 ls x.2
  apps : ∀ a ∈ s.apps, EverJustified o s0 ls a.blk
  log : ∀ b, Obs.start b ∈ s.log → EverJustified o s0 ls b

theorem EverJustified.snoc {o : AppOpts} {s0 : AState} {ls : List Label} {b : Blk} (h : EverJustified o s0 ls b)
    (l : Label) : EverJustified o s0 (ls ++ [l]) b := by
  obtain ⟨pre, l', post, s1, rfl, h1, h2⟩ := h
  exact ⟨pre, l', post ++ [l], s1, by simp, h1, h2⟩

theorem grants_justified {o : AppOpts} {s s' : AState} {l : Label} {b : Blk} (hinv : Inv o s)
    (hst : step o s l = some s') (ht : ∃ f, (b, f) ∈ s'.tries) :
    (∃ f, (b, f) ∈ s.tries) ∨ (∃ t, (t, b) ∈ s.retries) ∨ (∃ a ∈ s.apps, a.blk = b) ∨ Justified s l b := by
  obtain ⟨f, ht⟩ := ht
  cases l with
  | applyBlock c =>
    rcases step_applyBlock hst with ⟨e, _, rfl⟩ | ⟨_, rfl⟩ <;> exact Or.inl ⟨f, ht⟩
  | callerReturns r => obtain ⟨_, e, _, rfl⟩ := step_callerReturns hst; exact Or.inl ⟨f, ht⟩
  | callerTimesOut r => obtain ⟨_, rfl⟩ := step_callerTimesOut hst; exact Or.inl ⟨f, ht⟩
  | newBlock i =>
    obtain ⟨_, r, c, hq, rfl⟩ := step_newBlock hst
    unfold handleNewBlock at ht
    cases ha : admission o { s with newQ := s.newQ.eraseIdx i } c with
    | some e => rw [ha] at ht; exact Or.inl ⟨f, ht⟩
    | none =>
      rw [ha] at ht
      simp only at ht
      obtain ⟨m, p, hh', hf⟩ := addTables_frame { s with newQ := s.newQ.eraseIdx i } r c
      rcases addBlockEntry_cases { s with newQ := s.newQ.eraseIdx i } r c with ⟨_, he⟩ | ⟨h1, h2, he⟩
      · rw [he, hf] at ht; exact Or.inl ⟨f, ht⟩
      · rw [he, hf] at ht
        simp only at ht h1 h2
        rcases List.mem_append.1 ht with ht | ht
        · exact Or.inl ⟨f, ht⟩
        · simp only [List.mem_singleton, Prod.mk.injEq] at ht
          obtain ⟨rfl, rfl⟩ := ht
          right; right; right
          refine Justified.arrival i r rfl hq ?_ ?_
          · have := UInt64.not_lt.1 h1
            rw [UInt64.le_iff_toNat_le, UInt64.toNat_add] at this
            simp only [UInt64.toNat_one] at this
            have := Nat.mod_le (s.highest.toNat + 1) (2 ^ 64)
            omega
          · intro a ha' hid
            have := (hinv.pend b.previous).2 (List.mem_map.2 ⟨a, ha', hid⟩)
            rw [h2] at this; cases this
  | forkHeads heads lib =>
    obtain ⟨_, rfl⟩ := step_forkHeads hst
    rw [handleForkHeads_eq] at ht
    obtain ⟨_, h2, _⟩ := evict_spec (heights s.lib lib)
      { s with lib := lib, watchdog := s.watchdog.purge lib, tries := s.tries ++ heads.flatMap (kids o s) }
      (hinv.idx.of_eq rfl rfl rfl)
    have e1 := h2.tries
    simp only at ht e1
    rw [e1] at ht
    rcases List.mem_append.1 ht with ht | ht
    · exact Or.inl ⟨f, ht⟩
    · obtain ⟨id, hid, hk⟩ := List.mem_flatMap.1 ht
      obtain ⟨hw, rfl, _⟩ := (mem_kids hinv.idx id _).1 hk
      exact Or.inr (Or.inr (Or.inr (Justified.parentHead heads lib rfl hid hw)))
  | broadcast id height =>
    obtain ⟨_, rfl⟩ := step_broadcast hst
    rw [handleBroadcast_eq] at ht
    rcases List.mem_append.1 ht with ht | ht
    · exact Or.inl ⟨f, ht⟩
    · obtain ⟨hw, rfl, _⟩ := (mem_kids hinv.idx id _).1 ht
      exact Or.inr (Or.inr (Or.inr (Justified.parentBroadcast height rfl hw)))
  | tryBlock i =>
    obtain ⟨_, c, f', ht', rfl⟩ := step_tryBlock hst
    left
    refine ⟨f, ?_⟩
    unfold handleTry at ht
    split at ht
    · split at ht <;> exact List.mem_of_mem_eraseIdx ht
    · exact List.mem_of_mem_eraseIdx ht
  | status i =>
    obtain ⟨_, c, e, ha, rfl⟩ := step_status hst
    have hidx' : Idx { s with apps := s.apps.eraseIdx i } := hinv.idx.of_eq rfl rfl rfl
    rcases handleStatus_cases o { s with apps := s.apps.eraseIdx i } c e with ⟨hb, hs⟩ | ⟨hb, hu, hs⟩ | ⟨hb, hu, hs⟩
    · rw [hs] at ht
      rcases List.mem_append.1 ht with ht | ht
      · exact Or.inl ⟨f, ht⟩
      · simp only [List.mem_singleton, Prod.mk.injEq] at ht
        exact Or.inr (Or.inr (Or.inl ⟨_, mem_of_getElem? ha, ht.1.symm⟩))
    · rw [hs] at ht; exact Or.inl ⟨f, ht⟩
    · rw [hs, (onlyRemoved_remove _ _ _).tries] at ht
      rcases List.mem_append.1 ht with ht | ht
      · exact Or.inl ⟨f, ht⟩
      · unfold wakes at ht
        by_cases he : e = none
        · rw [if_pos he] at ht
          obtain ⟨hw, hp, _⟩ := (mem_kids hidx' _ _).1 ht
          subst he
          exact Or.inr (Or.inr (Or.inr (Justified.parentApplied i c rfl ha hp.symm hw)))
        · rw [if_neg he] at ht; cases ht
  | delayDone i => obtain ⟨c, t, t', ha, _, rfl⟩ := step_delayDone hst; exact Or.inl ⟨f, ht⟩
  | delayTimeout i => obtain ⟨c, t, t', ha, _, rfl⟩ := step_delayTimeout hst; exact Or.inl ⟨f, ht⟩
  | work i => obtain ⟨c, ha, ⟨_, rfl⟩ | ⟨_, rfl⟩⟩ := step_work hst <;> exact Or.inl ⟨f, ht⟩
  | rpcReturn i e => obtain ⟨c, ha, rfl⟩ := step_rpcReturn hst; exact Or.inl ⟨f, ht⟩
  | retryDue i =>
    obtain ⟨t, c, hr, _, rfl⟩ := step_retryDue hst
    rcases List.mem_append.1 ht with ht | ht
    · exact Or.inl ⟨f, ht⟩
    · simp only [List.mem_singleton, Prod.mk.injEq] at ht
      obtain ⟨rfl, _⟩ := ht
      exact Or.inr (Or.inl ⟨t, mem_of_getElem? hr⟩)
  | tick d => rw [step_tick hst] at ht; exact Or.inl ⟨f, ht⟩

/-- Retries and applications come from tries. -/
theorem flow_step {o : AppOpts} {s s' : AState} {l : Label} (hinv : Inv o s) (hst : step o s l = some s') :
    (∀ x ∈ s'.retries, x ∈ s.retries ∨ ∃ f, (x.2, f) ∈ s.tries) ∧
    (∀ a ∈ s'.apps, (∃ a' ∈ s.apps, a'.blk = a.blk) ∨ ∃ f, (a.blk, f) ∈ s.tries) := by
  have hset : ∀ {i : Nat} {a a' : BApp}, s.apps[i]? = some a → a'.blk = a.blk →
      ∀ x ∈ s.apps.set i a', (∃ a' ∈ s.apps, a'.blk = x.blk) ∨ ∃ f, (x.blk, f) ∈ s.tries := by
    intro i a a' ha hb x hx
    rcases List.mem_or_eq_of_mem_set hx with hx | rfl
    · exact Or.inl ⟨x, hx, rfl⟩
    · exact Or.inl ⟨a, mem_of_getElem? ha, hb.symm⟩
  have same : ∀ s' : AState, s'.retries = s.retries → (∀ a ∈ s'.apps, a ∈ s.apps) →
      (∀ x ∈ s'.retries, x ∈ s.retries ∨ ∃ f, (x.2, f) ∈ s.tries) ∧
      (∀ a ∈ s'.apps, (∃ a' ∈ s.apps, a'.blk = a.blk) ∨ ∃ f, (a.blk, f) ∈ s.tries) := by
    intro s' h1 h2
    exact ⟨fun x hx => Or.inl (by rw [← h1]; exact hx), fun a ha => Or.inl ⟨a, h2 a ha, rfl⟩⟩
  cases l with
  | applyBlock c =>
    rcases step_applyBlock hst with ⟨e, _, rfl⟩ | ⟨_, rfl⟩ <;> exact same _ rfl fun _ h => h
  | callerReturns r => obtain ⟨_, e, _, rfl⟩ := step_callerReturns hst; exact same _ rfl fun _ h => h
  | callerTimesOut r => obtain ⟨_, rfl⟩ := step_callerTimesOut hst; exact same _ rfl fun _ h => h
  | newBlock i =>
    obtain ⟨_, r, c, hq, rfl⟩ := step_newBlock hst
    unfold handleNewBlock
    cases ha : admission o { s with newQ := s.newQ.eraseIdx i } c with
    | some e => exact same _ rfl fun _ h => h
    | none =>
      simp only
      obtain ⟨m, p, hh', hf⟩ := addTables_frame { s with newQ := s.newQ.eraseIdx i } r c
      rcases addBlockEntry_cases { s with newQ := s.newQ.eraseIdx i } r c with ⟨_, he⟩ | ⟨h1, h2, he⟩
      · rw [he, hf]; exact same _ rfl fun _ h => h
      · rw [he, hf]; exact same _ rfl fun _ h => h
  | forkHeads heads lib =>
    obtain ⟨_, rfl⟩ := step_forkHeads hst
    rw [handleForkHeads_eq]
    obtain ⟨_, h2, _⟩ := evict_spec (heights s.lib lib)
      { s with lib := lib, watchdog := s.watchdog.purge lib, tries := s.tries ++ heads.flatMap (kids o s) }
      (hinv.idx.of_eq rfl rfl rfl)
    have e1 := h2.retries
    have e2 := h2.apps
    refine same _ e1 fun a ha => ?_
    simp only at ha e2
    rw [e2] at ha; exact ha
  | broadcast id height =>
    obtain ⟨_, rfl⟩ := step_broadcast hst
    rw [handleBroadcast_eq]; exact same _ rfl fun _ h => h
  | tryBlock i =>
    obtain ⟨_, c, f, ht, rfl⟩ := step_tryBlock hst
    have hm := mem_of_getElem? ht
    unfold handleTry
    split
    · split
      · refine ⟨fun x hx => ?_, fun a ha => Or.inl ⟨a, ha, rfl⟩⟩
        rcases List.mem_append.1 hx with hx | hx
        · exact Or.inl hx
        · simp only [List.mem_singleton] at hx
          subst hx
          exact Or.inr ⟨f, hm⟩
      · exact same _ rfl fun _ h => h
    · refine ⟨fun x hx => Or.inl hx, fun a ha => ?_⟩
      rcases List.mem_append.1 ha with ha | ha
      · exact Or.inl ⟨a, ha, rfl⟩
      · simp only [List.mem_singleton] at ha
        subst ha
        right
        refine ⟨f, ?_⟩
        have : (beginApp o s.now c).blk = c := by unfold beginApp; simp only; split <;> rfl
        rw [this]; exact hm
  | status i =>
    obtain ⟨_, c, e, ha, rfl⟩ := step_status hst
    have hap : ∀ x ∈ s.apps.eraseIdx i, x ∈ s.apps := fun x hx => List.mem_of_mem_eraseIdx hx
    rcases handleStatus_cases o { s with apps := s.apps.eraseIdx i } c e with ⟨hb, hs⟩ | ⟨hb, hu, hs⟩ | ⟨hb, hu, hs⟩
    · rw [hs]; exact same _ rfl hap
    · rw [hs]; exact same _ rfl hap
    · rw [hs]
      refine same _ (onlyRemoved_remove _ _ _).retries fun a ha => ?_
      rw [(onlyRemoved_remove _ _ _).apps] at ha
      exact hap a ha
  | delayDone i =>
    obtain ⟨c, t, t', ha, _, rfl⟩ := step_delayDone hst
    exact ⟨fun x hx => Or.inl hx, hset ha rfl⟩
  | delayTimeout i =>
    obtain ⟨c, t, t', ha, _, rfl⟩ := step_delayTimeout hst
    exact ⟨fun x hx => Or.inl hx, hset ha rfl⟩
  | work i =>
    obtain ⟨c, ha, ⟨_, rfl⟩ | ⟨_, rfl⟩⟩ := step_work hst
    · exact ⟨fun x hx => Or.inl hx, hset ha rfl⟩
    · exact ⟨fun x hx => Or.inl hx, hset ha rfl⟩
  | rpcReturn i e =>
    obtain ⟨c, ha, rfl⟩ := step_rpcReturn hst
    exact ⟨fun x hx => Or.inl hx, hset ha rfl⟩
  | retryDue i =>
    obtain ⟨t, c, hr, _, rfl⟩ := step_retryDue hst
    exact ⟨fun x hx => Or.inl (List.mem_of_mem_eraseIdx hx), fun a ha => Or.inl ⟨a, ha, rfl⟩⟩
  | tick d => rw [step_tick hst]; exact same _ rfl fun _ h => h

theorem sched_run {o : AppOpts} {hi lib : UInt64} {T0 : Int} {ls : List Label} {s : AState}
    (hr : run o (init hi lib T0) ls = some s) : Inv o s ∧ SchedInv o (init hi lib T0) ls s := by
  induction ls using List.reverseRecOn generalizing s with
  | nil => cases hr; exact ⟨inv_init _ _ _ _, by constructor <;> simp [init]⟩
  | append_singleton ls l ih =>
    obtain ⟨s1, h1, h2⟩ := run_snoc hr
    obtain ⟨hi1, hs⟩ := ih h1
    obtain ⟨f1, f2⟩ := flow_step hi1 h2
    refine ⟨inv_step o s1 l s hi1 h2, ?_, ?_, ?_, ?_⟩
    · intro x hx
      rcases grants_justified hi1 h2 ⟨x.2, hx⟩ with ⟨f, h⟩ | ⟨t, h⟩ | ⟨a, h, hb⟩ | h
      · exact (hs.tries _ h).snoc l
      · exact (hs.retries _ h).snoc l
      · rw [← hb]; exact (hs.apps _ h).snoc l
      · exact ⟨ls, l, [], s1, rfl, h1, h⟩
    · intro x hx
      rcases f1 x hx with h | ⟨f, h⟩
      · exact (hs.retries _ h).snoc l
      · exact (hs.tries _ h).snoc l
    · intro a ha
      rcases f2 a ha with ⟨a', h, hb⟩ | ⟨f, h⟩
      · rw [← hb]; exact (hs.apps _ h).snoc l
      · exact (hs.tries _ h).snoc l
    · intro b hb
      obtain ⟨new, hl, _, hst⟩ := step_log hi1 h2
      rw [hl] at hb
      rcases List.mem_append.1 hb with hb | hb
      · obtain ⟨i, f, _, ht, _⟩ := hst b hb
        exact (hs.tries _ (mem_of_getElem? ht)).snoc l
      · exact (hs.log b hb).snoc l

/-! ### Forced wake-ups -/

/-- A forced wake-up for `b` is under way. -/
def Forced (s : AState) (b : Blk) : Prop := (b, true) ∈ s.tries ∨ ∃ t, (t, b) ∈ s.retries

theorem starts_mono {o : AppOpts} {s s' : AState} {l : Label} (hinv : Inv o s) (hst : step o s l = some s') (b : Blk) :
    starts s.log b ≤ starts s'.log b := by
  obtain ⟨new, hl, _⟩ := step_log hinv hst
  rw [hl]; unfold starts; rw [List.countP_append]; omega

theorem mem_eraseIdx_of_ne {α : Type} {l : List α} {i : Nat} {x y : α} (h : l[i]? = some x) (hy : y ∈ l) (hne : y ≠ x) :
    y ∈ l.eraseIdx i := by
  have := (perm_eraseIdx h).mem_iff.1 hy
  rcases List.mem_cons.1 this with rfl | this
  · exact absurd rfl hne
  · exact this

theorem forced_step {o : AppOpts} {s s' : AState} {l : Label} {b : Blk} (hinv : Inv o s) (hf : Forced s b)
    (hst : step o s l = some s') : Forced s' b ∨ starts s.log b < starts s'.log b := by
  have same : ∀ s' : AState, (∀ x ∈ s.tries, x ∈ s'.tries) → s'.retries = s.retries →
      Forced s' b ∨ starts s.log b < starts s'.log b := by
    intro s' h1 h2
    left
    rcases hf with h | ⟨t, h⟩
    · exact Or.inl (h1 _ h)
    · exact Or.inr ⟨t, by rw [h2]; exact h⟩
  cases l with
  | applyBlock c =>
    rcases step_applyBlock hst with ⟨e, _, rfl⟩ | ⟨_, rfl⟩ <;> exact same _ (fun _ h => h) rfl
  | callerReturns r => obtain ⟨_, e, _, rfl⟩ := step_callerReturns hst; exact same _ (fun _ h => h) rfl
  | callerTimesOut r => obtain ⟨_, rfl⟩ := step_callerTimesOut hst; exact same _ (fun _ h => h) rfl
  | newBlock i =>
    obtain ⟨_, r, c, hq, rfl⟩ := step_newBlock hst
    unfold handleNewBlock
    cases ha : admission o { s with newQ := s.newQ.eraseIdx i } c with
    | some e => exact same _ (fun _ h => h) rfl
    | none =>
      simp only
      obtain ⟨m, p, hh', hf⟩ := addTables_frame { s with newQ := s.newQ.eraseIdx i } r c
      rcases addBlockEntry_cases { s with newQ := s.newQ.eraseIdx i } r c with ⟨_, he⟩ | ⟨h1, h2, he⟩
      · rw [he, hf]; exact same _ (fun _ h => h) rfl
      · rw [he, hf]; exact same _ (fun _ h => List.mem_append_left _ h) rfl
  | forkHeads heads lib =>
    obtain ⟨_, rfl⟩ := step_forkHeads hst
    rw [handleForkHeads_eq]
    obtain ⟨_, h2, _⟩ := evict_spec (heights s.lib lib)
      { s with lib := lib, watchdog := s.watchdog.purge lib, tries := s.tries ++ heads.flatMap (kids o s) }
      (hinv.idx.of_eq rfl rfl rfl)
    have e1 := h2.retries
    have e2 := h2.tries
    refine same _ (fun x hx => ?_) e1
    simp only at e2 ⊢
    rw [e2]; exact List.mem_append_left _ hx
  | broadcast id height =>
    obtain ⟨_, rfl⟩ := step_broadcast hst
    rw [handleBroadcast_eq]; exact same _ (fun _ h => List.mem_append_left _ h) rfl
  | tryBlock i =>
    obtain ⟨_, c, f, ht, rfl⟩ := step_tryBlock hst
    by_cases hx : (b, true) = (c, f)
    · cases hx
      unfold handleTry
      split
      · left; right
        exact ⟨_, List.mem_append_right _ (List.mem_singleton.2 rfl)⟩
      · right
        simp [starts]
    · unfold handleTry
      have hk : (b, true) ∈ s.tries → (b, true) ∈ s.tries.eraseIdx i := fun h => mem_eraseIdx_of_ne ht h hx
      left
      split
      · split
        · rcases hf with h | ⟨t, h⟩
          · exact Or.inl (hk h)
          · exact Or.inr ⟨t, List.mem_append_left _ h⟩
        · rcases hf with h | ⟨t, h⟩
          · exact Or.inl (hk h)
          · exact Or.inr ⟨t, h⟩
      · rcases hf with h | ⟨t, h⟩
        · exact Or.inl (hk h)
        · exact Or.inr ⟨t, h⟩
  | status i =>
    obtain ⟨_, c, e, ha, rfl⟩ := step_status hst
    rcases handleStatus_cases o { s with apps := s.apps.eraseIdx i } c e with ⟨hb, hs⟩ | ⟨hb, hu, hs⟩ | ⟨hb, hu, hs⟩
    · rw [hs]; exact same _ (fun _ h => List.mem_append_left _ h) rfl
    · rw [hs]; exact same _ (fun _ h => h) rfl
    · rw [hs]
      refine same _ (fun x hx => ?_) (onlyRemoved_remove _ _ _).retries
      rw [(onlyRemoved_remove _ _ _).tries]
      exact List.mem_append_left _ hx
  | delayDone i => obtain ⟨c, t, t', ha, _, rfl⟩ := step_delayDone hst; exact same _ (fun _ h => h) rfl
  | delayTimeout i => obtain ⟨c, t, t', ha, _, rfl⟩ := step_delayTimeout hst; exact same _ (fun _ h => h) rfl
  | work i => obtain ⟨c, ha, ⟨_, rfl⟩ | ⟨_, rfl⟩⟩ := step_work hst <;> exact same _ (fun _ h => h) rfl
  | rpcReturn i e => obtain ⟨c, ha, rfl⟩ := step_rpcReturn hst; exact same _ (fun _ h => h) rfl
  | retryDue i =>
    obtain ⟨t, c, hr, _, rfl⟩ := step_retryDue hst
    left
    rcases hf with h | ⟨t', h⟩
    · exact Or.inl (List.mem_append_left _ h)
    · by_cases hx : (t', b) = (t, c)
      · cases hx
        exact Or.inl (List.mem_append_right _ (List.mem_singleton.2 rfl))
      · exact Or.inr ⟨t', mem_eraseIdx_of_ne hr h hx⟩
  | tick d => rw [step_tick hst]; exact same _ (fun _ h => h) rfl

theorem forced_run {o : AppOpts} {s s' : AState} {ls : List Label} {b : Blk} (hinv : Inv o s) (hf : Forced s b)
    (hr : run o s ls = some s') : Forced s' b ∨ starts s.log b < starts s'.log b := by
  have : Inv o s' ∧ starts s.log b ≤ starts s'.log b ∧ (Forced s' b ∨ starts s.log b < starts s'.log b) := by
    refine run_induction (P := fun s' => Inv o s' ∧ starts s.log b ≤ starts s'.log b ∧
      (Forced s' b ∨ starts s.log b < starts s'.log b)) ⟨hinv, Nat.le_refl _, Or.inl hf⟩ ?_ hr
    rintro t l t' ⟨hi, hle, hp⟩ hst
    have hm := starts_mono hi hst b
    refine ⟨inv_step o t l t' hi hst, Nat.le_trans hle hm, ?_⟩
    rcases hp with hp | hp
    · rcases forced_step hi hp hst with h | h
      · exact Or.inl h
      · exact Or.inr (Nat.lt_of_le_of_lt hle h)
    · exact Or.inr (Nat.lt_of_lt_of_le hp hm)
  exact this.2.2

end App
end KP2P

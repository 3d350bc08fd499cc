import Verif.Props.ChainLink
import Verif.Props.ApplicatorSched
/-!
# C118: a block that the chain has accepted is not submitted again
-/

namespace KP2P
open App

namespace App

/-- How often this block was handed over. -/
def callsOf (log : List Obs) (b : Blk) : Nat := log.countP fun
  | .call _ c => decide (c = b)
  | _ => false

/-- How many applications of this block ended with the block-state error. -/
def stateErrorsOf (log : List Obs) (b : Blk) : Nat := log.countP fun
  | .status c e => decide (c = b) && errIs e .blockState
  | _ => false

/-- How many applications of blocks with this id ended well. -/
def endedWell (log : List Obs) (id : Bytes) : Nat := log.countP fun
  | .status c none => decide (c.id = id)
  | _ => false

/-- How often an event says that the block with this id is accepted or a fork head. -/
def tells (id : Bytes) : Label → Nat
  | .broadcast i _ => if i = id then 1 else 0
  | .forkHeads heads _ => heads.count id
  | _ => 0

/-- The same for a whole execution. -/
def told (id : Bytes) (ls : List Label) : Nat := (ls.map (tells id)).sum

/-- Everything that gives a reason to submit this block. -/
def reasons (ls : List Label) (log : List Obs) (b : Blk) : Nat :=
  callsOf log b + stateErrorsOf log b + endedWell log b.previous + told b.previous ls

/-- Queued calls with this block. -/
def queuedOf (s : AState) (b : Blk) : Nat := s.newQ.countP fun x => decide (x.2 = b)

theorem counts_append (f : Obs → Bool) (new log : List Obs) : List.countP f log ≤ List.countP f (new ++ log) := by
  rw [List.countP_append]; omega

theorem reasons_mono {ls : List Label} {l : Label} {log log' : List Obs} {b : Blk} (h : ∃ new, log' = new ++ log) :
    reasons ls log b ≤ reasons (ls ++ [l]) log' b := by
  obtain ⟨new, rfl⟩ := h
  unfold reasons callsOf stateErrorsOf endedWell told
  rw [List.map_append, List.sum_append]
  refine Nat.add_le_add (Nat.add_le_add (Nat.add_le_add ?_ ?_) ?_) (Nat.le_add_right _ _) <;> exact counts_append _ _ _

theorem newQ_eq {o : AppOpts} {s s' : AState} {l : Label} (hinv : Inv o s) (hs : step o s l = some s')
    (h1 : ∀ b, l ≠ .applyBlock b) (h2 : ∀ i, l ≠ .newBlock i) : s'.newQ = s.newQ := by
  cases l with
  | applyBlock b => exact absurd rfl (h1 b)
  | newBlock i => exact absurd rfl (h2 i)
  | callerReturns r => obtain ⟨_, e, _, rfl⟩ := step_callerReturns hs; rfl
  | callerTimesOut r => obtain ⟨_, rfl⟩ := step_callerTimesOut hs; rfl
  | forkHeads heads lib =>
    obtain ⟨_, rfl⟩ := step_forkHeads hs
    rw [handleForkHeads_eq]
    obtain ⟨_, h2, _⟩ := evict_spec (heights s.lib lib)
      { s with lib := lib, watchdog := s.watchdog.purge lib, tries := s.tries ++ heads.flatMap (kids o s) }
      (hinv.idx.of_eq rfl rfl rfl)
    exact h2.newQ
  | broadcast id height => obtain ⟨_, rfl⟩ := step_broadcast hs; rw [handleBroadcast_eq]
  | tryBlock i =>
    obtain ⟨_, b, f, _, rfl⟩ := step_tryBlock hs
    unfold handleTry
    split
    · split <;> rfl
    · rfl
  | status i =>
    obtain ⟨_, b, e, _, rfl⟩ := step_status hs
    rcases handleStatus_cases o { s with apps := s.apps.eraseIdx i } b e with ⟨_, hh⟩ | ⟨_, _, hh⟩ | ⟨_, _, hh⟩
    · rw [hh]; rfl
    · rw [hh]; rfl
    · rw [hh, (onlyRemoved_remove _ _ _).newQ]; rfl
  | delayDone i => obtain ⟨_, _, _, _, _, rfl⟩ := step_delayDone hs; rfl
  | delayTimeout i => obtain ⟨_, _, _, _, _, rfl⟩ := step_delayTimeout hs; rfl
  | work i => obtain ⟨_, _, ⟨_, rfl⟩ | ⟨_, rfl⟩⟩ := step_work hs <;> rfl
  | rpcReturn i e => obtain ⟨_, _, rfl⟩ := step_rpcReturn hs; rfl
  | retryDue i => obtain ⟨_, _, _, _, rfl⟩ := step_retryDue hs; rfl
  | tick d => rw [step_tick hs]

/-- What a status adds to the log. -/
theorem status_log {o : AppOpts} {s s' : AState} {i : Nat} (hs : step o s (.status i) = some s') :
    ∃ b e new, s.apps[i]? = some ⟨b, .done e⟩ ∧ s'.log = new ++ .status b e :: s.log := by
  obtain ⟨_, b, e, ha, rfl⟩ := step_status hs
  refine ⟨b, e, ?_⟩
  rcases handleStatus_cases o { s with apps := s.apps.eraseIdx i } b e with ⟨_, hh⟩ | ⟨_, _, hh⟩ | ⟨_, _, hh⟩
  · rw [hh]; exact ⟨[], ha, rfl⟩
  · rw [hh]; exact ⟨[], ha, rfl⟩
  · rw [hh, log_remove]; exact ⟨_, ha, rfl⟩

theorem reasons_step {o : AppOpts} {s s' : AState} {ls : List Label} {l : Label} (b : Blk) (hinv : Inv o s)
    (hs : step o s l = some s') :
    grants o s l b + queuedOf s' b + reasons ls s.log b ≤ queuedOf s b + reasons (ls ++ [l]) s'.log b := by
  have hmono : reasons ls s.log b ≤ reasons (ls ++ [l]) s'.log b :=
    reasons_mono (by obtain ⟨new, h, _⟩ := step_log hinv hs; exact ⟨new, h⟩)
  have hq := newQ_eq hinv hs
  have quiet : grants o s l b = 0 → (∀ b, l ≠ .applyBlock b) → (∀ i, l ≠ .newBlock i) →
      grants o s l b + queuedOf s' b + reasons ls s.log b ≤ queuedOf s b + reasons (ls ++ [l]) s'.log b := by
    intro h0 h1 h2
    have : queuedOf s' b = queuedOf s b := by unfold queuedOf; rw [hq h1 h2]
    omega
  cases l with
  | applyBlock c =>
    have hc : callsOf s'.log b = callsOf s.log b + if c = b then 1 else 0 := by
      rcases step_applyBlock hs with ⟨e, _, rfl⟩ | ⟨_, rfl⟩ <;> simp [callsOf, List.countP_cons]
    have hn : queuedOf s' b ≤ queuedOf s b + if c = b then 1 else 0 := by
      rcases step_applyBlock hs with ⟨e, _, rfl⟩ | ⟨_, rfl⟩ <;> simp [queuedOf, List.countP_append, List.countP_cons]
    have hr : reasons (ls ++ [.applyBlock c]) s'.log b = reasons ls s.log b + if c = b then 1 else 0 := by
      unfold reasons
      rw [hc]
      have h1 : stateErrorsOf s'.log b = stateErrorsOf s.log b := by
        rcases step_applyBlock hs with ⟨e, _, rfl⟩ | ⟨_, rfl⟩ <;> simp [stateErrorsOf]
      have h2 : endedWell s'.log b.previous = endedWell s.log b.previous := by
        rcases step_applyBlock hs with ⟨e, _, rfl⟩ | ⟨_, rfl⟩ <;> simp [endedWell]
      rw [h1, h2]
      simp only [told, List.map_append, List.sum_append, List.map_cons, tells, List.map_nil, List.sum_cons, List.sum_nil]
      omega
    rw [hr]
    simp only [grants]
    omega
  | newBlock i =>
    obtain ⟨_, r, c, hg, rfl⟩ := step_newBlock hs
    have h1 := countP_eraseIdx_add hg (fun x => decide (x.2 = b))
    have h2 : queuedOf (handleNewBlock o { s with newQ := s.newQ.eraseIdx i } r c) b =
        (s.newQ.eraseIdx i).countP fun x => decide (x.2 = b) := by
      unfold queuedOf handleNewBlock
      split
      · rfl
      · rcases addBlockEntry_cases { s with newQ := s.newQ.eraseIdx i } r c with ⟨_, he⟩ | ⟨_, _, he⟩ <;>
        · rw [he]
          obtain ⟨m, p, hh', hf⟩ := addTables_frame { s with newQ := s.newQ.eraseIdx i } r c
          rw [hf]
    have h3 : grants o s (.newBlock i) b ≤ if c = b then 1 else 0 := by
      simp only [grants, hg]
      split
      · rename_i h; rw [if_pos h.1]
      · exact Nat.zero_le _
    rw [h2]
    simp only [decide_eq_true_eq] at h1
    have h4 : queuedOf s b = s.newQ.countP fun x => decide (x.2 = b) := rfl
    omega
  | status i =>
    obtain ⟨c, e, new, ha, hl⟩ := status_log hs
    have hn : queuedOf s' b = queuedOf s b := by
      unfold queuedOf; rw [hq (fun b => by rintro ⟨⟩) (fun i => by rintro ⟨⟩)]
    have h1 : grants o s (.status i) b ≤ (if c = b ∧ errIs e .blockState = true then 1 else 0) +
        if e = none ∧ c.id = b.previous then 1 else 0 := by
      simp only [grants, ha]
      split
      · rename_i h
        by_cases hc : c = b
        · simp [hc, h]
        · simp [hc]
      · split
        · rename_i h; rw [if_pos (c := e = none ∧ c.id = b.previous) ⟨h.1, h.2.2.symm⟩]; omega
        · exact Nat.zero_le _
    have h2 : stateErrorsOf s.log b + (if c = b ∧ errIs e .blockState = true then 1 else 0) ≤ stateErrorsOf s'.log b := by
      rw [hl]
      unfold stateErrorsOf
      rw [List.countP_append, List.countP_cons]
      simp only [Bool.and_eq_true, decide_eq_true_eq]
      omega
    have h3 : endedWell s.log b.previous + (if e = none ∧ c.id = b.previous then 1 else 0) ≤
        endedWell s'.log b.previous := by
      rw [hl]
      unfold endedWell
      rw [List.countP_append, List.countP_cons]
      cases e with
      | none => simp only [true_and, decide_eq_true_eq]; omega
      | some e => simp
    have h4 : callsOf s.log b ≤ callsOf s'.log b := by
      rw [hl]; unfold callsOf; rw [List.countP_append, List.countP_cons]; omega
    have h5 : told b.previous ls ≤ told b.previous (ls ++ [.status i]) := by
      unfold told; rw [List.map_append, List.sum_append]; omega
    unfold reasons
    omega
  | broadcast id n =>
    have hn : queuedOf s' b = queuedOf s b := by
      unfold queuedOf; rw [hq (fun b => by rintro ⟨⟩) (fun i => by rintro ⟨⟩)]
    obtain ⟨_, rfl⟩ := step_broadcast hs
    rw [handleBroadcast_eq] at hn ⊢
    have h1 : grants o s (.broadcast id n) b ≤ tells b.previous (.broadcast id n) := by
      simp only [grants, tells]
      split
      · rename_i h; rw [if_pos h.2.symm]
      · exact Nat.zero_le _
    simp only [reasons, told, List.map_append, List.sum_append, List.map_cons, List.map_nil, List.sum_cons, List.sum_nil]
    omega
  | forkHeads heads L =>
    have hn : queuedOf s' b = queuedOf s b := by
      unfold queuedOf; rw [hq (fun b => by rintro ⟨⟩) (fun i => by rintro ⟨⟩)]
    have h1 : grants o s (.forkHeads heads L) b ≤ tells b.previous (.forkHeads heads L) := by
      simp only [grants, tells]
      split
      · exact Nat.le_refl _
      · exact Nat.zero_le _
    obtain ⟨new, hl, _⟩ := step_log hinv hs
    have h2 : callsOf s.log b ≤ callsOf s'.log b := by rw [hl]; exact counts_append _ _ _
    have h3 : stateErrorsOf s.log b ≤ stateErrorsOf s'.log b := by rw [hl]; exact counts_append _ _ _
    have h4 : endedWell s.log b.previous ≤ endedWell s'.log b.previous := by rw [hl]; exact counts_append _ _ _
    simp only [reasons, told, List.map_append, List.sum_append, List.map_cons, List.map_nil, List.sum_cons, List.sum_nil]
    omega
  | callerReturns r => exact quiet rfl (fun b => by rintro ⟨⟩) (fun i => by rintro ⟨⟩)
  | callerTimesOut r => exact quiet rfl (fun b => by rintro ⟨⟩) (fun i => by rintro ⟨⟩)
  | tryBlock i => exact quiet rfl (fun b => by rintro ⟨⟩) (fun i => by rintro ⟨⟩)
  | delayDone i => exact quiet rfl (fun b => by rintro ⟨⟩) (fun i => by rintro ⟨⟩)
  | delayTimeout i => exact quiet rfl (fun b => by rintro ⟨⟩) (fun i => by rintro ⟨⟩)
  | work i => exact quiet rfl (fun b => by rintro ⟨⟩) (fun i => by rintro ⟨⟩)
  | rpcReturn i e => exact quiet rfl (fun b => by rintro ⟨⟩) (fun i => by rintro ⟨⟩)
  | retryDue i => exact quiet rfl (fun b => by rintro ⟨⟩) (fun i => by rintro ⟨⟩)
  | tick d => exact quiet rfl (fun b => by rintro ⟨⟩) (fun i => by rintro ⟨⟩)

theorem granted_le {o : AppOpts} {hi lib : UInt64} {T0 : Int} {ls : List Label} {s : AState} (b : Blk)
    (hr : run o (init hi lib T0) ls = some s) :
    Inv o s ∧ granted o (init hi lib T0) ls b + queuedOf s b ≤ reasons ls s.log b := by
  induction ls using List.reverseRecOn generalizing s with
  | nil => cases hr; exact ⟨inv_init _ _ _ _, Nat.zero_le _⟩
  | append_singleton ls l ih =>
    obtain ⟨s1, h1, h2⟩ := run_snoc hr
    obtain ⟨hi1, ht⟩ := ih h1
    refine ⟨inv_step o s1 l s hi1 h2, ?_⟩
    rw [granted_append o _ ls l b s1 s h1 h2]
    have := reasons_step (ls := ls) b hi1 h2
    omega

end App

/-- C118, what holds: a block is never submitted more often than it was handed over, had the block-state error as verdict, or
had its parent reported: applied with success, announced as accepted or listed as fork head. -/
theorem C118_counted_partial {o : AppOpts} {hi lib : UInt64} {T0 : Int} {ls : List App.Label} {s : AState}
    (hr : App.run o (App.init hi lib T0) ls = some s) (b : Blk) :
    submitsOf s.log b ≤ callsOf s.log b + stateErrorsOf s.log b + endedWell s.log b.previous + told b.previous ls := by
  have h1 := C16_counted hr b
  have h2 := (granted_le b hr).2
  unfold reasons at h2
  omega

/-- C118, what holds: when the parent is not reported while the node runs (it was accepted before), every call makes for at most
one submission, unless the chain answers with the block-state error. -/
theorem C118_once_partial {o : AppOpts} {hi lib : UInt64} {T0 : Int} {ls : List App.Label} {s : AState}
    (hr : App.run o (App.init hi lib T0) ls = some s) (b : Blk)
    (h1 : ∀ c e, Obs.status c e ∈ s.log → c = b → errIs e .blockState = false)
    (h2 : ∀ c, Obs.status c none ∈ s.log → c.id ≠ b.previous) (h3 : ∀ n, Label.broadcast b.previous n ∉ ls)
    (h4 : ∀ heads L, Label.forkHeads heads L ∈ ls → b.previous ∉ heads) :
    submitsOf s.log b ≤ callsOf s.log b := by
  have h := C118_counted_partial hr b
  have e1 : stateErrorsOf s.log b = 0 := by
    unfold stateErrorsOf
    rw [List.countP_eq_zero]
    intro x hx
    cases x <;> simp only [Bool.false_eq_true, not_false_eq_true, Bool.and_eq_true, decide_eq_true_eq, not_and,
      Bool.not_eq_true]
    exact h1 _ _ hx
  have e2 : endedWell s.log b.previous = 0 := by
    unfold endedWell
    rw [List.countP_eq_zero]
    intro x hx
    cases x with
    | status c e =>
      cases e with
      | none => simpa using h2 c hx
      | some e => simp
    | _ => simp
  have e3 : told b.previous ls = 0 := by
    unfold told
    rw [List.sum_eq_zero_iff_forall_eq_nat]
    intro x hx
    obtain ⟨l, hl, rfl⟩ := List.mem_map.1 hx
    cases l <;> simp only [tells]
    · exact List.count_eq_zero.2 (h4 _ _ hl)
    · rw [if_neg]; rintro rfl; exact h3 _ hl
  omega

/-- In the example run of the applicator the parent is submitted once; nobody reports its own parent. -/
example : (∀ c e, Obs.status c e ∈ exS1.log → c = exP → errIs e .blockState = false) ∧
    (∀ c, Obs.status c none ∈ exS1.log → c.id ≠ exP.previous) ∧ (∀ n, Label.broadcast exP.previous n ∉ exRun) ∧
    (∀ heads L, Label.forkHeads heads L ∈ exRun → exP.previous ∉ heads) ∧ submitsOf exS1.log exP = 1 ∧
    callsOf exS1.log exP = 1 := by
  have h : ∀ c e, Obs.status c e ∉ exS1.log := by
    intro c e hc
    have : (exS1.log.any fun | .status _ _ => true | _ => false) = false := by decide +kernel
    rw [List.any_eq_false] at this
    exact this _ hc rfl
  exact ⟨fun c e hc => absurd hc (h c e), fun c hc => absurd hc (h c _), by simp [exRun], by simp [exRun], by decide +kernel,
    by decide +kernel⟩

/-! ## C118 refuted -/

/-- The chain has accepted block 0 (height 10). -/
def exA0 : Link.State := Link.init 10 5 0 [([0], 10)]
/-- A block on top of it. -/
def exAP : Blk := ⟨[1], [0], 11, 0, [], []⟩
/-- Its child. -/
def exAC : Blk := ⟨[2], [1], 12, 0, [], []⟩

/-- Both are handed over once; the parent is applied with success, which schedules the child; so do the announcement that the
parent was accepted, and the list of fork heads with the parent. The first request starts the application of the child, the others
become forced retries. The chain accepts the child and both callers get their answers. -/
def exAFirst : List Link.Label :=
  [.act (.applyBlock exAP), .act (.applyBlock exAC), .act (.newBlock 0), .act (.newBlock 0), .act (.tryBlock 0), .act (.work 0),
   .accept [1] [0] 11, .act (.rpcReturn 0 none), .act (.status 0), .deliver 0, .act (.forkHeads [[1]] 5),
   .act (.tryBlock 0), .act (.tryBlock 0), .act (.tryBlock 0), .act (.work 0),
   .accept [2] [1] 12, .act (.rpcReturn 0 none), .act (.status 0), .act (.callerReturns 0), .act (.callerReturns 1), .deliver 0]

/-- One retry. -/
def exARetry : List Link.Label :=
  [.act (.retryDue 0), .act (.tryBlock 0), .act (.work 0), .act (.rpcReturn 0 none), .act (.status 0)]

/-- C118 as stated: once the chain has accepted a block, the applicator has been told so and every call has been answered, the
block is not submitted again as long as nobody hands it over. The chain is honest. -/
def NotAgain (o : AppOpts) : Prop :=
  ∀ (hi lib : UInt64) (now : Int) (known : List (Bytes × UInt64)) (ls ls' : List Link.Label) (s s' : Link.State) (b : Blk),
    Link.run o (Link.init hi lib now known) ls = some s → Obs.status b none ∈ s.app.log → Link.Has s b.id →
    s.app.newQ = [] → s.app.waiting = [] → Link.run o s ls' = some s' → (∀ c, .act (.applyBlock c) ∉ ls') →
    submitsOf s'.app.log b = submitsOf s.app.log b

theorem Link.run_getD {o : AppOpts} {s d : Link.State} {ls : List Link.Label} (h : (Link.run o s ls).isSome = true) :
    Link.run o s ls = some ((Link.run o s ls).getD d) := by
  obtain ⟨t, ht⟩ := Option.isSome_iff_exists.1 h
  rw [ht]; rfl

theorem Link.run_append (o : AppOpts) (s : Link.State) (a b : List Link.Label) :
    Link.run o s (a ++ b) = (Link.run o s a).bind fun s' => Link.run o s' b := by
  induction a generalizing s with
  | nil => rfl
  | cons l a ih =>
    simp only [List.cons_append, Link.run]
    cases Link.step o s l with
    | none => rfl
    | some s' => exact ih s'

/-- C118 refuted, in the ordinary course of events: the child is submitted three times, twice of these after it was accepted and
after everybody was answered. -/
theorem C118_again_refuted : ¬ NotAgain {} := by
  intro h
  have := h 10 5 0 [([0], 10)] exAFirst (.act (.tick 50000000) :: exARetry ++ exARetry) _ _ exAC
    (Link.run_getD (d := exA0) (by decide +kernel)) (by decide +kernel) (by decide +kernel) (by decide +kernel)
    (by decide +kernel) (Link.run_getD (d := exA0) (by decide +kernel))
    (by intro c; simp [exARetry])
  revert this
  decide +kernel

/-- The numbers of that execution: three submissions for one call. -/
example : let s := (Link.run {} exA0 (exAFirst ++ .act (.tick 50000000) :: exARetry ++ exARetry)).getD exA0
    submitsOf s.app.log exAC = 3 ∧ callsOf s.app.log exAC = 1 ∧ submitsOf s.app.log exAP = 1 := by decide +kernel

namespace Link

/-- Nothing is under way but retries of `b`, which the chain has accepted. -/
structure OnlyRetries (o : AppOpts) (b : Blk) (s : State) : Prop where
  tries : s.app.tries = []
  apps : s.app.apps = []
  pending : ∀ id, s.app.pending.has id = false
  hung : s.app.hung = false
  height : ¬ b.height ≤ s.app.lib
  early : ¬ goBlockTime b.timestamp > s.app.now + o.delayThreshold
  gone : s.app.byId.get b.id = none
  childless : s.app.byPrev.get b.id = none
  accepted : Has s b.id

theorem retry_run {o : AppOpts} {b : Blk} {s : State} {t : Int} {R : List (Int × Blk)} (h : OnlyRetries o b s)
    (hr : s.app.retries = (t, b) :: R) (ht : t ≤ s.app.now) :
    ∃ s', run o s exARetry = some s' ∧ OnlyRetries o b s' ∧ s'.app.retries = R ∧ s'.app.now = s.app.now ∧
      s'.app.log = .status b none :: .verdict b none :: .submit b :: .start b :: s.app.log := by
  have h1 : step o s (.act (.retryDue 0)) =
      some { s with app := { s.app with retries := R, tries := [(b, true)] } } := by
    simp only [step, App.step, hr, List.getElem?_cons_zero, if_pos ht, trySend, List.eraseIdx_cons_zero, h.tries, Option.map_some,
      List.nil_append]
  have h2 : step o { s with app := { s.app with retries := R, tries := [(b, true)] } } (.act (.tryBlock 0)) =
      some { s with app := { s.app with retries := R, tries := [], pending := s.app.pending.set b.id (), apps := [⟨b, .queued⟩],
                                        log := .start b :: s.app.log } } := by
    simp only [step, App.step, h.hung, List.getElem?_cons_zero, List.eraseIdx_cons_zero, handleTry, h.pending b.id, h.apps,
      beginApp, if_neg h.early, Bool.false_eq_true, if_false, List.nil_append, Option.map_some]
  refine ⟨{ s with app := { s.app with
      retries := R, tries := [], pending := (s.app.pending.set b.id ()).del b.id, apps := []
      log := .status b none :: .verdict b none :: .submit b :: .start b :: s.app.log } }, ?_, ?_, rfl, rfl, rfl⟩
  · have hh : ∀ t : State, t.accepted = s.accepted → honest t b none = true := by
      intro t ht
      have : Has t b.id := by unfold Has; rw [ht]; exact h.accepted
      simp [honest, this, errIs]
    simp only [exARetry, run, h1, h2]
    simp only [step, App.step, List.getElem?_cons_zero, if_neg h.height, List.set_cons_zero, h.hung, List.eraseIdx_cons_zero,
      Option.map_some, hh, if_true]
    rcases handleStatus_cases o { s.app with
        retries := R, tries := [], pending := s.app.pending.set b.id (), apps := []
        log := .verdict b none :: .submit b :: .start b :: s.app.log } b none with ⟨hc, _⟩ | ⟨_, hc, _⟩ | ⟨_, _, hc⟩
    · cases hc
    · cases hc
    · simp only [h.hung] at hc
      rw [hc]
      simp only [wakes, if_true, kids, h.childless, List.append_nil, afterStatus, removeBlockEntry, h.gone]
  · refine ⟨rfl, rfl, ?_, h.hung, h.height, h.early, h.gone, h.childless, h.accepted⟩
    intro id
    have := h.pending id
    rw [GoMap.has_eq] at this ⊢
    simp only [GoMap.get_del, GoMap.get_set]
    split
    · rfl
    · exact this

def retryRounds : Nat → List Label
  | 0 => []
  | n + 1 => exARetry ++ retryRounds n

theorem retries_run {o : AppOpts} {b : Blk} {t : Int} (n : Nat) {s : State} (h : OnlyRetries o b s)
    (hr : s.app.retries = List.replicate n (t, b)) (ht : t ≤ s.app.now) :
    ∃ s', run o s (retryRounds n) = some s' ∧ submitsOf s'.app.log b = submitsOf s.app.log b + n ∧
      callsOf s'.app.log b = callsOf s.app.log b ∧ stateErrorsOf s'.app.log b = stateErrorsOf s.app.log b := by
  induction n generalizing s with
  | zero => exact ⟨s, rfl, rfl, rfl, rfl⟩
  | succ n ih =>
    obtain ⟨s1, h1, h2, h3, h4, h5⟩ := retry_run h (by rw [hr, List.replicate_succ]) ht
    obtain ⟨s2, h6, h7, h8, h9⟩ := ih h2 h3 (by omega)
    refine ⟨s2, by rw [retryRounds, run_append, h1]; exact h6, ?_, ?_, ?_⟩
    · rw [h7, h5]; simp [submitsOf]; omega
    · rw [h8, h5]; simp [callsOf]
    · rw [h9, h5]; simp [stateErrorsOf, errIs]

/-- `n` more reports that the block with this id is a fork head. -/
def reportRounds (id : Bytes) (lib : UInt64) : Nat → List Label
  | 0 => []
  | n + 1 => [.act (.forkHeads [id] lib), .act (.tryBlock 0)] ++ reportRounds id lib n

/-- A recent block is being applied and waits to be told again that its parent was accepted. -/
structure Applying (o : AppOpts) (b : Blk) (s : State) : Prop where
  tries : s.app.tries = []
  pending : s.app.pending.has b.id = true
  hung : s.app.hung = false
  lib : s.app.lib.toNat < 2 ^ 64 - 1
  kids : kids o s.app b.previous = [(b, true)]

theorem heights_same (l : UInt64) (h : l.toNat < 2 ^ 64 - 1) : heights l l = [] := by
  have : (l + 1).toNat = l.toNat + 1 := by
    rw [UInt64.toNat_add]
    have : (1 : UInt64).toNat = 1 := rfl
    omega
  unfold heights
  rw [this, Nat.sub_self]
  rfl

theorem reports_run {o : AppOpts} {b : Blk} (n : Nat) {s : State} (h : Applying o b s) :
    ∃ w, run o s (reportRounds b.previous s.app.lib n) = some { s with app := { s.app with
      watchdog := w, retries := s.app.retries ++ List.replicate n (s.app.now + o.forceApplicationRetryDelay, b) } } := by
  induction n generalizing s with
  | zero => exact ⟨s.app.watchdog, by simp [reportRounds, run]⟩
  | succ n ih =>
    have hl : ¬ s.app.lib.toNat = 18446744073709551615 := by have := h.lib; omega
    have h1 : step o s (.act (.forkHeads [b.previous] s.app.lib)) = some { s with app := { s.app with
        watchdog := s.app.watchdog.purge s.app.lib, tries := [(b, true)] } } := by
      simp only [step, App.step, h.hung, Bool.false_eq_true, if_false, Option.map_some, handleForkHeads_eq, heights_same _ h.lib,
        List.foldl_nil, List.flatMap_cons, List.flatMap_nil, h.kids, h.tries, List.nil_append, List.append_nil, hl, decide_false]
    have h2 : step o { s with app := { s.app with watchdog := s.app.watchdog.purge s.app.lib, tries := [(b, true)] } }
        (.act (.tryBlock 0)) = some { s with app := { s.app with
          watchdog := s.app.watchdog.purge s.app.lib
          retries := s.app.retries ++ [(s.app.now + o.forceApplicationRetryDelay, b)] } } := by
      simp only [step, App.step, h.hung, List.getElem?_cons_zero, List.eraseIdx_cons_zero, handleTry, h.pending, if_true,
        Option.map_some, h.tries]
    obtain ⟨w, hw⟩ := ih (s := { s with app := { s.app with
          watchdog := s.app.watchdog.purge s.app.lib
          retries := s.app.retries ++ [(s.app.now + o.forceApplicationRetryDelay, b)] } })
      ⟨h.tries, h.pending, h.hung, h.lib, h.kids⟩
    refine ⟨w, ?_⟩
    rw [reportRounds, run_append]
    simp only [run, h1, h2, Option.bind_some]
    refine hw.trans ?_
    simp only [List.append_assoc, List.singleton_append, List.replicate_succ]

end Link

/-- The child is being applied. -/
def exABegin : List Link.Label :=
  [.accept [1] [0] 11, .deliver 0, .act (.applyBlock exAC), .act (.newBlock 0), .act (.tryBlock 0), .act (.work 0)]

def exAMid : Link.State := (Link.run {} exA0 exABegin).getD exA0

/-- The chain accepts it, everybody is answered, and time passes. -/
def exAEnd : List Link.Label :=
  [.accept [2] [1] 12, .act (.rpcReturn 0 none), .act (.status 0), .act (.callerReturns 0), .act (.tick 50000000)]

def exALast : Link.State := (Link.run {} exAMid exAEnd).getD exA0

/-- C118 refuted, without any bound: for every number there is an execution with an honest chain in which a block is handed over
once and is accepted at its first submission, and then, after its caller was answered, is submitted that many times more. -/
theorem C118_many_refuted (n : Nat) : ∃ ls ls' s s', Link.run {} exA0 ls = some s ∧ Obs.status exAC none ∈ s.app.log ∧
    Link.Has s exAC.id ∧ s.app.newQ = [] ∧ s.app.waiting = [] ∧ submitsOf s.app.log exAC = 1 ∧
    Link.run {} s ls' = some s' ∧ (∀ c, .act (.applyBlock c) ∉ ls') ∧ stateErrorsOf s'.app.log exAC = 0 ∧
    submitsOf s'.app.log exAC = n + 1 := by
  have hm : Link.Applying {} exAC exAMid :=
    ⟨by decide +kernel, by decide +kernel, by decide +kernel, by decide +kernel, by decide +kernel⟩
  obtain ⟨w, hw⟩ := Link.reports_run n hm
  have hre : exAMid.app.retries = [] := by decide +kernel
  have hnow : exAMid.app.now = 0 := by decide +kernel
  rw [hre, hnow, List.nil_append] at hw
  have hend : ∃ s, Link.run {} { exAMid with app := { exAMid.app with
      watchdog := w, retries := List.replicate n ((0 : Int) + ({} : AppOpts).forceApplicationRetryDelay, exAC) } } exAEnd = some s ∧
      Link.OnlyRetries {} exAC s ∧ s.app.retries = List.replicate n (50000000, exAC) ∧ s.app.now = 50000000 ∧
      s.app.log = exALast.app.log ∧ s.app.newQ = [] ∧ s.app.waiting = [] := by
    have hp : ∀ id, exALast.app.pending.has id = false := fun id => by
      have : exALast.app.pending.entries = [] := by decide +kernel
      rw [GoMap.has_eq, GoMap.get, this]; rfl
    exact ⟨{ exALast with app := { exALast.app with
        watchdog := w, retries := List.replicate n ((0 : Int) + ({} : AppOpts).forceApplicationRetryDelay, exAC) } }, rfl,
      ⟨(by decide +kernel : exALast.app.tries = []), (by decide +kernel : exALast.app.apps = []), hp,
        (by decide +kernel : exALast.app.hung = false), (by decide +kernel : ¬ exAC.height ≤ exALast.app.lib),
        (by decide +kernel : ¬ goBlockTime exAC.timestamp > exALast.app.now + ({} : AppOpts).delayThreshold),
        (by decide +kernel : exALast.app.byId.get exAC.id = none), (by decide +kernel : exALast.app.byPrev.get exAC.id = none),
        (by decide +kernel : Link.Has exALast exAC.id)⟩, rfl, (by decide +kernel : exALast.app.now = 50000000), rfl,
      (by decide +kernel : exALast.app.newQ = []), (by decide +kernel : exALast.app.waiting = [])⟩
  obtain ⟨s1, h1, h2, h3, h4, h5, h6, h7⟩ := hend
  obtain ⟨s2, h8, h9, _, h10⟩ := Link.retries_run n h2 h3 (by omega)
  have h0 : Link.run {} exA0 exABegin = some exAMid := Link.run_getD (by decide +kernel)
  refine ⟨exABegin ++ (Link.reportRounds exAC.previous exAMid.app.lib n ++ exAEnd), Link.retryRounds n, s1, s2, ?_, ?_,
    h2.accepted, h6, h7, ?_, h8, ?_, ?_, ?_⟩
  · rw [Link.run_append, h0, Option.bind_some, Link.run_append, hw, Option.bind_some]
    exact h1
  · rw [h5]; decide +kernel
  · rw [h5]; decide +kernel
  · intro c
    clear h8 h9 h10 h3 hw h1
    induction n with
    | zero => simp [Link.retryRounds]
    | succ n ih => simp [Link.retryRounds, exARetry, ih]
  · rw [h10, h5]; decide +kernel
  · rw [h9, h5, Nat.add_comm]
    congr 1

end KP2P

import Verif.Props.Applicator
/-!
# C16 – C21, C63, C64: the block applicator, scheduling
-/

namespace KP2P
open App

/-! ## C16 -/

theorem mem_countP_pos {log : List Obs} {b : Blk} (h : Obs.submit b ∈ log) : 0 < submitsOf log b :=
  List.countP_pos_iff.2 ⟨_, h, by simp⟩

/-- C16: every block that is submitted was scheduled, before that, on a timely arrival or on a report that its parent
was accepted while it was waiting. -/
theorem C16_justified {o : AppOpts} {hi lib : UInt64} {T0 : Int} {ls : List Label} {s : AState}
    (hr : App.run o (App.init hi lib T0) ls = some s) (b : Blk) (hb : Obs.submit b ∈ s.log) :
    EverJustified o (App.init hi lib T0) ls b := by
  have hst := start_reachable ⟨hi, lib, T0, ls, hr⟩ b
  have hpos : 0 < starts s.log b := by
    have := mem_countP_pos hb
    unfold StartInv at hst
    omega
  obtain ⟨x, hx, hp⟩ := List.countP_pos_iff.1 hpos
  cases x <;> simp only [Bool.false_eq_true, decide_eq_true_eq] at hp
  subst hp
  exact (sched_run hr).2.log _ hx

/-- C16, quantitative: there are never more submissions of a block than scheduling events for it — so each submission
has its own reason (a timely arrival, a report about the parent, or a retry after a block-state error). -/
theorem C16_counted {o : AppOpts} {hi lib : UInt64} {T0 : Int} {ls : List Label} {s : AState}
    (hr : App.run o (App.init hi lib T0) ls = some s) (b : Blk) :
    submitsOf s.log b ≤ granted o (App.init hi lib T0) ls b := by
  have h1 := start_reachable ⟨hi, lib, T0, ls, hr⟩ b
  have h2 := (tokens_run b hr).2
  unfold StartInv at h1
  unfold tokensOf at h2
  omega

/-- In the example run the parent is submitted once, and there was exactly one reason. -/
example : submitsOf exS1.log exP = 1 ∧ granted exO exS0 exRun exP = 1 ∧ granted exO exS0 exRun exK = 0 := by
  decide +kernel

/-! ## C17 -/

/-- The blocks waiting for a parent, as scheduled (with the forced flag for recent ones). -/
def childrenOf (o : AppOpts) (s : AState) (id : Bytes) : List (Blk × Bool) :=
  ((waitingBlocks s).filter fun b => decide (b.previous = id)).map fun b => (b, forceFor o s.now b)

/-- C17: an accepted block is broadcast. -/
theorem C17_broadcast {o : AppOpts} {s s' : AState} {id : Bytes} {n : UInt64} (h : Reachable o s)
    (hst : step o s (.broadcast id n) = some s') : s'.tries.Perm (s.tries ++ childrenOf o s id) := by
  obtain ⟨_, rfl⟩ := step_broadcast hst
  rw [handleBroadcast_eq]
  exact List.Perm.append_left _ (kids_perm (inv_reachable h).idx id)

/-- C17: fork heads are reported. -/
theorem C17_fork_heads {o : AppOpts} {s s' : AState} {heads : List Bytes} {L : UInt64} (h : Reachable o s)
    (hst : step o s (.forkHeads heads L) = some s') : s'.tries.Perm (s.tries ++ heads.flatMap (childrenOf o s)) := by
  have hinv := inv_reachable h
  obtain ⟨_, rfl⟩ := step_forkHeads hst
  rw [handleForkHeads_eq]
  obtain ⟨_, h2, _⟩ := evict_spec (heights s.lib L)
    { s with lib := L, watchdog := s.watchdog.purge L, tries := s.tries ++ heads.flatMap (kids o s) }
    (hinv.idx.of_eq rfl rfl rfl)
  have e := h2.tries
  simp only at e ⊢
  rw [e]
  exact List.Perm.append_left _ (List.Perm.flatMap_left _ fun id _ => kids_perm hinv.idx id)

/-- C17: a block is applied successfully. -/
theorem C17_applied {o : AppOpts} {s s' : AState} {i : Nat} {b : Blk} (h : Reachable o s)
    (ha : s.apps[i]? = some ⟨b, .done none⟩) (hst : step o s (.status i) = some s') :
    s'.tries.Perm (s.tries ++ childrenOf o s b.id) := by
  have hinv := inv_reachable h
  obtain ⟨_, c, e, ha', rfl⟩ := step_status hst
  rw [ha] at ha'
  cases ha'
  have hidx' : Idx { s with apps := s.apps.eraseIdx i } := hinv.idx.of_eq rfl rfl rfl
  rcases handleStatus_cases o { s with apps := s.apps.eraseIdx i } b none with ⟨hb, _⟩ | ⟨_, hu, _⟩ | ⟨_, _, hs⟩
  · cases hb
  · cases hu
  · rw [hs, (onlyRemoved_remove _ _ _).tries]
    exact List.Perm.append_left _ (kids_perm hidx' b.id)

/-- `childrenOf` contains exactly the waiting children. -/
theorem C17_children {o : AppOpts} {s : AState} (h : Reachable o s) (id : Bytes) (b : Blk) :
    (∃ f, (b, f) ∈ childrenOf o s id) ↔ Waiting s b ∧ b.previous = id := by
  unfold childrenOf
  simp only [List.mem_map, List.mem_filter, decide_eq_true_eq, mem_waitingBlocks (inv_reachable h).idx]
  constructor
  · rintro ⟨f, c, ⟨hw, hp⟩, hx⟩
    cases hx
    exact ⟨hw, hp⟩
  · rintro ⟨hw, hp⟩
    exact ⟨_, b, ⟨hw, hp⟩, rfl⟩

example : (childrenOf exO exS1 [1]).map Prod.fst = [exK] ∧
    ∃ s, App.run exO exS1 [.rpcReturn 0 none] = some s ∧ s.apps[0]? = some ⟨exP, .done none⟩ :=
  ⟨by decide +kernel, _, rfl, by decide +kernel⟩

/-- A number of 64 bits read with a sign. -/
def asSigned (n : UInt64) : Int := if n.toNat < 2 ^ 63 then n.toNat else n.toNat - 2 ^ 64

theorem force_iff {o : AppOpts} {now : Int} {b : Blk}
    (hth : -9223372036854775808 < o.forceChildRequestThreshold ∧ o.forceChildRequestThreshold ≤ 9223372036854775807) :
    forceFor o now b = true ↔ now - asSigned b.timestamp * 1000000 < o.forceChildRequestThreshold := by
  unfold forceFor
  have hi : b.timestamp.toBitVec.toInt = asSigned b.timestamp := by
    rw [BitVec.toInt_eq_toNat_cond]
    have : b.timestamp.toBitVec.toNat = b.timestamp.toNat := rfl
    rw [this]
    unfold asSigned
    split <;> split <;> omega
  rw [hi]
  unfold satDur
  simp only [decide_eq_true_eq]
  omega

/-- C17: a child is woken with force exactly if its time, in milliseconds, is less than the threshold, in nanoseconds, ago. -/
theorem C17_forced {o : AppOpts} {s : AState} {id : Bytes} {b : Blk} {f : Bool} (h : (b, f) ∈ childrenOf o s id)
    (hth : -9223372036854775808 < o.forceChildRequestThreshold ∧ o.forceChildRequestThreshold ≤ 9223372036854775807) :
    f = true ↔ s.now - asSigned b.timestamp * 1000000 < o.forceChildRequestThreshold := by
  unfold childrenOf at h
  obtain ⟨c, _, hc⟩ := List.mem_map.1 h
  cases hc
  exact force_iff hth

/-- Recent blocks in the sense of the force threshold. -/
theorem force_of_recent {o : AppOpts} {now : Int} {b : Blk} (hts : b.timestamp.toNat < 2 ^ 63)
    (hth : -9223372036854775808 < o.forceChildRequestThreshold ∧ o.forceChildRequestThreshold ≤ 9223372036854775807)
    (hr : now - b.timestamp.toNat * 1000000 < o.forceChildRequestThreshold) : forceFor o now b = true := by
  rw [force_iff hth, asSigned, if_pos hts]; exact hr

/-! ## C18 -/

/-- The step reports that the block with this id was accepted. -/
def Accepts (s : AState) (l : Label) (id : Bytes) : Prop :=
  (∃ n, l = .broadcast id n) ∨ (∃ heads L, l = .forkHeads heads L ∧ id ∈ heads) ∨
    ∃ i a, l = .status i ∧ s.apps[i]? = some ⟨a, .done none⟩ ∧ a.id = id

theorem accepts_forced {o : AppOpts} {s s' : AState} {l : Label} {b : Blk} (h : Reachable o s)
    (hacc : Accepts s l b.previous) (hst : step o s l = some s') (hw : Waiting s b)
    (hf : forceFor o s.now b = true) : (b, true) ∈ s'.tries := by
  have hc : (b, true) ∈ childrenOf o s b.previous := by
    unfold childrenOf
    simp only [List.mem_map, List.mem_filter, decide_eq_true_eq, mem_waitingBlocks (inv_reachable h).idx]
    exact ⟨b, ⟨hw, rfl⟩, by rw [hf]⟩
  rcases hacc with ⟨n, rfl⟩ | ⟨heads, L, rfl, hm⟩ | ⟨i, a, rfl, ha, hid⟩
  · exact (C17_broadcast h hst).mem_iff.2 (List.mem_append_right _ hc)
  · exact (C17_fork_heads h hst).mem_iff.2 (List.mem_append_right _ (List.mem_flatMap.2 ⟨_, hm, hc⟩))
  · rw [← hid] at hc
    exact (C17_applied h ha hst).mem_iff.2 (List.mem_append_right _ hc)

/-- C18, what holds: if the parent of a recent waiting block is accepted then, at every later moment, a new application
of the block has begun since, or a wake-up for it is still under way (and it cannot be dropped).
Missing for the full statement: blocks older than the force threshold, for which it is false (`C18_wakeup_refuted`). -/
theorem C18_wakeup_partial {o : AppOpts} {s s1 s2 : AState} {l : Label} {ls : List Label} {b : Blk} (h : Reachable o s)
    (hacc : Accepts s l b.previous) (hst : step o s l = some s1) (hw : Waiting s b) (hts : b.timestamp.toNat < 2 ^ 63)
    (hth : -9223372036854775808 < o.forceChildRequestThreshold ∧ o.forceChildRequestThreshold ≤ 9223372036854775807)
    (hrec : s.now - b.timestamp.toNat * 1000000 < o.forceChildRequestThreshold)
    (hr : App.run o s1 ls = some s2) :
    starts s1.log b < starts s2.log b ∨ (b, true) ∈ s2.tries ∨ ∃ t, (t, b) ∈ s2.retries := by
  have hinv := inv_step o s l s1 (inv_reachable h) hst
  have ht := accepts_forced h hacc hst hw (force_of_recent hts hth hrec)
  rcases forced_run hinv (Or.inl ht) hr with h1 | h1
  · exact Or.inr h1
  · exact Or.inl h1

/-! A wake-up under way can always complete. -/

theorem run_one {o : AppOpts} {s s' : AState} {l : Label} (h : step o s l = some s') : App.run o s [l] = some s' := by
  simp only [App.run, h]

theorem run_cons {o : AppOpts} {s t s' : AState} {l : Label} {ls : List Label} (h : step o s l = some t)
    (h' : App.run o t ls = some s') : App.run o s (l :: ls) = some s' := by
  simp only [App.run, h]; exact h'

theorem drive_app {o : AppOpts} {s : AState} {b : Blk} (hinv : Inv o s) (hh : s.hung = false)
    (ht : (b, true) ∈ s.tries) :
    ∃ ls s', App.run o s ls = some s' ∧ s'.hung = false ∧ (b, true) ∈ s'.tries ∧ s'.pending.has b.id = false ∧
      starts s'.log b = starts s.log b := by
  by_cases hp : s.pending.has b.id = true
  swap
  · exact ⟨[], s, rfl, hh, ht, by simpa using hp, rfl⟩
  obtain ⟨a, ha, hid⟩ := List.mem_map.1 ((hinv.pend b.id).1 hp)
  obtain ⟨j, hj⟩ := List.mem_iff_getElem?.1 ha
  -- from a finished application
  have fin : ∀ (t : AState) (c : Blk) (e : Option Err), t.hung = false → (b, true) ∈ t.tries → c.id = b.id →
      t.apps[j]? = some ⟨c, .done e⟩ → starts t.log b = starts s.log b →
      ∃ ls s', App.run o t ls = some s' ∧ s'.hung = false ∧ (b, true) ∈ s'.tries ∧ s'.pending.has b.id = false ∧
        starts s'.log b = starts s.log b := by
    intro t c e h1 h2 h3 h4 h5
    have hst : step o t (.status j) = some (handleStatus o { t with apps := t.apps.eraseIdx j } c e) := by
      simp [step, h1, h4]
    refine ⟨[.status j], _, run_one hst, ?_⟩
    rcases handleStatus_cases o { t with apps := t.apps.eraseIdx j } c e with ⟨_, hs⟩ | ⟨_, _, hs⟩ | ⟨_, _, hs⟩
    · rw [hs]
      exact ⟨h1, List.mem_append_left _ h2, by simp [trySend, afterStatus, h3], h5⟩
    · rw [hs]
      exact ⟨h1, h2, by simp [afterStatus, h3], h5⟩
    · rw [hs]
      refine ⟨(onlyRemoved_remove _ _ _).hung.trans h1, ?_, ?_, ?_⟩
      · rw [(onlyRemoved_remove _ _ _).tries]; exact List.mem_append_left _ h2
      · rw [(onlyRemoved_remove _ _ _).pending]; simp [afterStatus, h3]
      · rw [log_remove, starts_map]; exact h5
  have hjlt : j < s.apps.length := (List.getElem?_eq_some_iff.1 hj).1
  have comp : ∀ (ls1 : List Label) (t : AState), App.run o s ls1 = some t →
      (∃ ls s', App.run o t ls = some s' ∧ s'.hung = false ∧ (b, true) ∈ s'.tries ∧ s'.pending.has b.id = false ∧
        starts s'.log b = starts s.log b) →
      ∃ ls s', App.run o s ls = some s' ∧ s'.hung = false ∧ (b, true) ∈ s'.tries ∧ s'.pending.has b.id = false ∧
        starts s'.log b = starts s.log b := by
    rintro ls1 t h1 ⟨ls2, s', h2, h3⟩
    exact ⟨ls1 ++ ls2, s', by rw [run_append, h1]; exact h2, h3⟩
  obtain ⟨c, st⟩ := a
  simp only at hid
  have rpc : ∀ t : AState, t.hung = false → (b, true) ∈ t.tries → t.apps[j]? = some ⟨c, .inRPC⟩ →
      starts t.log b = starts s.log b → j < t.apps.length →
      ∃ ls s', App.run o t ls = some s' ∧ s'.hung = false ∧ (b, true) ∈ s'.tries ∧ s'.pending.has b.id = false ∧
        starts s'.log b = starts s.log b := by
    intro t h1 h2 h3 h4 h5
    have hst : step o t (.rpcReturn j none) =
        some { t with apps := t.apps.set j ⟨c, .done none⟩, log := .verdict c none :: t.log } := by simp [step, h3]
    obtain ⟨ls, s', hr, hx⟩ := fin { t with apps := t.apps.set j ⟨c, .done none⟩, log := .verdict c none :: t.log } c none
      h1 h2 hid (by simp [h5]) h4
    exact ⟨.rpcReturn j none :: ls, s', run_cons hst hr, hx⟩
  cases st with
  | done e => exact fin s c e hh ht hid hj rfl
  | inRPC => exact rpc s hh ht hj rfl hjlt
  | queued =>
    by_cases hl : c.height ≤ s.lib
    · have hst : step o s (.work j) =
          some { s with apps := s.apps.set j ⟨c, .done (some (.sentinel .blockIrreversibility))⟩ } := by
        simp [step, hj, hl]
      exact comp [.work j] _ (run_one hst) (fin _ c _ hh ht hid (List.getElem?_set_self hjlt) rfl)
    · have hst : step o s (.work j) = some { s with apps := s.apps.set j ⟨c, .inRPC⟩, log := .submit c :: s.log } := by
        simp [step, hj, hl]
      exact comp [.work j] _ (run_one hst) (rpc _ hh ht (by simp [hjlt]) rfl (by simpa using hjlt))
  | delaying t1 t2 =>
    have hst1 : step o s (.tick (t2 - s.now).toNat) = some { s with now := s.now + (t2 - s.now).toNat } := rfl
    have hst2 : step o { s with now := s.now + (t2 - s.now).toNat } (.delayTimeout j) =
        some { s with now := s.now + (t2 - s.now).toNat, apps := s.apps.set j ⟨c, .done none⟩,
                      log := .delayTimeout c :: s.log } := by
      simp only [step, hj]
      rw [if_pos (by omega)]
    exact comp [.tick (t2 - s.now).toNat, .delayTimeout j] _ (run_cons hst1 (run_one hst2))
      (fin _ c _ hh ht hid (List.getElem?_set_self hjlt) rfl)

/-- C18: a wake-up under way never gets stuck: from every state with such a wake-up (and a main loop that is not in the
endless loop of C59) there is a continuation that begins a new application. -/
theorem C18_can_complete_partial {o : AppOpts} {s : AState} {b : Blk} (h : Reachable o s) (hh : s.hung = false)
    (hf : (b, true) ∈ s.tries ∨ ∃ t, (t, b) ∈ s.retries) :
    ∃ ls s', App.run o s ls = some s' ∧ starts s.log b < starts s'.log b := by
  have main : ∀ t : AState, Inv o t → t.hung = false → (b, true) ∈ t.tries → starts t.log b = starts s.log b →
      ∃ ls s', App.run o t ls = some s' ∧ starts s.log b < starts s'.log b := by
    intro t hi h1 h2 h3
    obtain ⟨ls, s', hr, k1, k2, k3, k4⟩ := drive_app hi h1 h2
    obtain ⟨i, hi⟩ := List.mem_iff_getElem?.1 k2
    have hst : step o s' (.tryBlock i) = some (handleTry o { s' with tries := s'.tries.eraseIdx i } b true) := by
      simp [step, k1, hi]
    refine ⟨ls ++ [.tryBlock i], _, by rw [run_append, hr]; exact run_one hst, ?_⟩
    unfold handleTry
    rw [if_neg (by simp [k3])]
    simp only [starts, List.countP_cons, decide_true, if_true] at k4 h3 ⊢
    omega
  rcases hf with hf | ⟨t, hf⟩
  · exact main s (inv_reachable h) hh hf rfl
  · obtain ⟨i, hi⟩ := List.mem_iff_getElem?.1 hf
    have hst1 : step o s (.tick (t - s.now).toNat) = some { s with now := s.now + (t - s.now).toNat } := rfl
    have hst2 : step o { s with now := s.now + (t - s.now).toNat } (.retryDue i) =
        some (trySend { s with now := s.now + (t - s.now).toNat, retries := s.retries.eraseIdx i } b true) := by
      simp only [step, hi]
      rw [if_pos (by omega)]
    have hi1 := inv_step o s _ _ (inv_reachable h) hst1
    have hi2 := inv_step o _ _ _ hi1 hst2
    obtain ⟨ls, s', hr, hx⟩ := main _ hi2 hh (List.mem_append_right _ (List.mem_singleton.2 rfl)) rfl
    exact ⟨.tick (t - s.now).toNat :: .retryDue i :: ls, s', run_cons hst1 (run_cons hst2 hr), hx⟩

/-- An old child (time stamp 0, now is 100 s) at the height above the head, and its parent. -/
def exOldKid : Blk := ⟨[2], [1], 11, 0, [], []⟩
def exOldParent : Blk := ⟨[1], [0], 10, 0, [], []⟩
def exS0' : AState := App.init 10 5 100000000000

/-- Up to the moment when the parent's acceptance has been handled. -/
def exLost1 : List Label := [.applyBlock exOldKid, .newBlock 0, .tryBlock 0, .work 0, .applyBlock exOldParent, .newBlock 0,
  .tryBlock 0, .work 1, .rpcReturn 1 none, .status 1]
def exLost2 : List Label := [.tryBlock 0, .rpcReturn 0 (some (.sentinel .unknownPreviousBlock)), .status 0]

/-- C18 refuted: the parent of a waiting block is accepted while the block is itself at the chain; the wake-up is
dropped; the chain's late verdict is "unknown previous"; afterwards the block waits with nothing scheduled and nothing
running, although its parent was accepted. -/
theorem C18_wakeup_refuted :
    ∃ s1 s2, App.run exO exS0' exLost1 = some s1 ∧ App.run exO s1 exLost2 = some s2 ∧
      Obs.status exOldParent none ∈ s1.log ∧ exOldKid ∈ waitingBlocks s2 ∧
      submissions s2.log exOldKid.id = submissions s1.log exOldKid.id ∧
      s2.tries = [] ∧ s2.retries = [] ∧ s2.apps = [] ∧ s2.newQ = [] :=
  ⟨_, _, rfl, rfl, by decide +kernel, by decide +kernel, by decide +kernel, by decide +kernel, by decide +kernel,
    by decide +kernel, by decide +kernel⟩

/-- For a recent child the same schedule leaves a forced wake-up behind. -/
example : ∃ s s1, App.run exO exS0 (exLost1.dropLast) = some s ∧ step exO s (.status 1) = some s1 ∧
    s.now - exOldKid.timestamp.toNat * 1000000 < exO.forceChildRequestThreshold ∧ exOldKid ∈ waitingBlocks s ∧
    s.apps[1]? = some ⟨exOldParent, .done none⟩ ∧ (exOldKid, true) ∈ s1.tries :=
  ⟨_, _, rfl, rfl, by decide +kernel, by decide +kernel, by decide +kernel, by decide +kernel⟩

/-! ## C19 -/

theorem submit_time {o : AppOpts} {hi lib : UInt64} {T0 : Int} {ls : List Label} {s s' : AState} {l : Label}
    (hr : App.run o (App.init hi lib T0) ls = some s) (hst : step o s l = some s')
    (hlife : s.now - T0 < 9223372036854775807) :
    ∃ new, s'.log = new ++ s.log ∧ ∀ b, Obs.submit b ∈ new → goBlockTime b.timestamp ≤ s.now + o.delayThreshold := by
  obtain ⟨new, hl, hs, _⟩ := step_log (inv_reachable ⟨hi, lib, T0, ls, hr⟩) hst
  refine ⟨new, hl, fun b hb => ?_⟩
  obtain ⟨i, _, ha, _⟩ := hs b hb
  have := (time_run hr).2 _ (mem_of_getElem? ha)
  simp only [StageTime, maxDur] at this
  omega

/-- C19, what holds: when a block is submitted, its time stamp (in milliseconds) is at most the threshold plus one
second ahead. (`hlife`: the node has been running for less than 2^63-1 ns, about 292 years.)
Missing for the full statement: the last second, for which it is false (`C19_delay_refuted`). -/
theorem C19_delay_partial {o : AppOpts} {hi lib : UInt64} {T0 : Int} {ls : List Label} {s s' : AState} {l : Label}
    (hr : App.run o (App.init hi lib T0) ls = some s) (hst : step o s l = some s')
    (hlife : s.now - T0 < 9223372036854775807) :
    ∃ new, s'.log = new ++ s.log ∧ ∀ b, Obs.submit b ∈ new →
      (b.timestamp.toNat : Int) * 1000000 < s.now + o.delayThreshold + second := by
  obtain ⟨new, hl, hs⟩ := submit_time hr hst hlife
  refine ⟨new, hl, fun b hb => ?_⟩
  have := hs b hb
  unfold goBlockTime at this
  unfold second
  omega

/-- C19 for whole seconds: exact. -/
theorem C19_delay_whole_seconds {o : AppOpts} {hi lib : UInt64} {T0 : Int} {ls : List Label} {s s' : AState} {l : Label}
    (hr : App.run o (App.init hi lib T0) ls = some s) (hst : step o s l = some s')
    (hlife : s.now - T0 < 9223372036854775807) :
    ∃ new, s'.log = new ++ s.log ∧ ∀ b, Obs.submit b ∈ new → b.timestamp.toNat % 1000 = 0 →
      (b.timestamp.toNat : Int) * 1000000 ≤ s.now + o.delayThreshold := by
  obtain ⟨new, hl, hs⟩ := submit_time hr hst hlife
  refine ⟨new, hl, fun b hb hm => ?_⟩
  have := hs b hb
  unfold goBlockTime at this
  omega

/-- A block 4.999 s ahead. -/
def exAhead : Blk := ⟨[5], [0], 11, 4999, [], []⟩

def exA1 : AState := (App.run exO exS0 [.tick 1000, .applyBlock exAhead, .newBlock 0, .tryBlock 0]).getD exS0
def exA2 : AState := (step exO exA1 (.work 0)).getD exS0

/-- C19 refuted: it is submitted at once, almost a second too early (one microsecond after the epoch, 998.999 ms). -/
theorem C19_delay_refuted :
    App.run exO exS0 [.tick 1000, .applyBlock exAhead, .newBlock 0, .tryBlock 0] = some exA1 ∧
      step exO exA1 (.work 0) = some exA2 ∧ exA2.log = .submit exAhead :: exA1.log ∧
      (exAhead.timestamp.toNat : Int) * 1000000 = exA1.now + exO.delayThreshold + 998999000 := by
  decide +kernel

/-- A block ten seconds ahead. -/
def exTen : Blk := { exAhead with timestamp := 10000 }
def exT1 : AState := (App.run exO exS0 [.applyBlock exTen, .newBlock 0, .tryBlock 0, .tick 5999999999]).getD exS0
def exT2 : AState := (App.run exO exT1 [.tick 1, .delayDone 0]).getD exS0

/-- It is submitted only after six seconds. -/
example : App.run exO exS0 [.applyBlock exTen, .newBlock 0, .tryBlock 0, .tick 5999999999] = some exT1 ∧
    step exO exT1 (.delayDone 0) = none ∧ App.run exO exT1 [.tick 1, .delayDone 0] = some exT2 ∧
    (step exO exT2 (.work 0)).map (·.log) = some (.submit exTen :: exT2.log) := by
  decide +kernel

/-! ## C20 -/

/-- C20: what the end of an application does. -/
theorem C20_verdict {o : AppOpts} {s s' : AState} {i : Nat} {b : Blk} {e : Option Err} (h : Reachable o s)
    (ha : s.apps[i]? = some ⟨b, .done e⟩) (hst : step o s (.status i) = some s') :
    (errIs e .blockState = true →
      s'.byId = s.byId ∧ s'.tries = s.tries ++ [(b, false)] ∧ s'.log = .status b e :: s.log) ∧
    (errIs e .blockState = false → errIs e .unknownPreviousBlock = true →
      s'.byId = s.byId ∧ s'.tries = s.tries ∧ s'.log = .status b e :: s.log) ∧
    (errIs e .blockState = false → errIs e .unknownPreviousBlock = false →
      s'.byId.get b.id = none ∧ (∀ id, id ≠ b.id → s'.byId.get id = s.byId.get id) ∧
      s'.log = (((s.byId.get b.id).map (·.chans)).getD []).reverse.map (fun r => Obs.answer r e) ++
        .status b e :: s.log ∧
      (e = none → s'.tries.Perm (s.tries ++ childrenOf o s b.id)) ∧ (e ≠ none → s'.tries = s.tries)) ∧
    s'.apps = s.apps.eraseIdx i ∧ (∀ a ∈ s'.apps, a.blk.id ≠ b.id) := by
  have hinv := inv_reachable h
  have hinv' := inv_step o s _ s' hinv hst
  have hst' := hst
  obtain ⟨_, c, e', ha', rfl⟩ := step_status hst
  rw [ha] at ha'
  cases ha'
  have hidx' : Idx { s with apps := s.apps.eraseIdx i } := hinv.idx.of_eq rfl rfl rfl
  have hap : ∀ a ∈ s.apps.eraseIdx i, a.blk.id ≠ b.id := by
    have hn := (perm_eraseIdx ha).map (·.blk.id) |>.nodup_iff.1 hinv.nodup
    rw [List.map_cons, List.nodup_cons] at hn
    intro a hm hid
    exact hn.1 (List.mem_map.2 ⟨a, hm, hid⟩)
  rcases handleStatus_cases o { s with apps := s.apps.eraseIdx i } b e with ⟨hb, hs⟩ | ⟨hb, hu, hs⟩ | ⟨hb, hu, hs⟩
  · rw [hs]
    refine ⟨fun _ => ⟨rfl, rfl, rfl⟩, ?_, ?_, rfl, hap⟩ <;> (rw [hb]; intro h; cases h)
  · rw [hs]
    refine ⟨?_, fun _ _ => ⟨rfl, rfl, rfl⟩, ?_, rfl, hap⟩
    · rw [hb]; intro h; cases h
    · rw [hu]; intro _ h; cases h
  · rw [hs]
    refine ⟨?_, ?_, fun _ _ => ⟨?_, ?_, ?_, ?_, ?_⟩, (onlyRemoved_remove _ _ _).apps, ?_⟩
    · rw [hb]; intro h; cases h
    · rw [hu]; intro _ h; cases h
    · rw [get_remove]; simp
    · intro id hid; rw [get_remove, if_neg hid]; rfl
    · rw [log_remove']; rfl
    · intro he
      rw [(onlyRemoved_remove _ _ _).tries]
      unfold wakes
      rw [if_pos he]
      exact List.Perm.append_left _ (kids_perm hidx' b.id)
    · intro he
      rw [(onlyRemoved_remove _ _ _).tries]
      unfold wakes
      rw [if_neg he]
      exact List.append_nil _
    · rw [(onlyRemoved_remove _ _ _).apps]; exact hap

/-- The three classes on wrapped errors: a sentinel wrapped by another layer is still recognised. -/
example : errIs (some (.note (wrapS .blockState (.other 3)))) .blockState = true ∧
    errIs (some (.note (wrapS .blockState (.other 3)))) .unknownPreviousBlock = false := by decide +kernel

example : ∃ s, App.run exO exS1 [.rpcReturn 0 (some (.sentinel .blockState))] = some s ∧
    s.apps[0]? = some ⟨exP, .done (some (.sentinel .blockState))⟩ ∧ s.hung = false :=
  ⟨_, rfl, by decide +kernel, by decide +kernel⟩

/-! ## C21 -/

/-- C21. -/
theorem C21_not_abandoned {o : AppOpts} {s : AState} (h : Reachable o s) (b : Blk) (hw : Waiting s b) :
    (∃ t ∈ s.tries, t.1.id = b.id) ∨ (∃ a ∈ s.apps, a.blk.id = b.id) ∨
    (∃ c, lastStop s.log b.id = some (.deferred c)) ∨
    (∃ c e, lastStop s.log b.id = some (.status c e) ∧ errIs e .unknownPreviousBlock = true) := by
  obtain ⟨x, hx, _⟩ := hw
  rcases park_reachable h b.id x hx with h1 | h1 | h1
  · exact Or.inl h1
  · right; left
    exact List.mem_map.1 (((inv_reachable h).pend _).1 h1)
  · right; right
    unfold Parked at h1
    split at h1
    · rename_i c hc; exact Or.inl ⟨c, hc⟩
    · rename_i c e hc; exact Or.inr ⟨c, e, hc, h1⟩
    · cases h1

/-- C21: "deferred" means what the property says: the height was too high or the parent was being applied. -/
theorem C21_deferred {o : AppOpts} {s s' : AState} {l : Label} (hst : step o s l = some s') (b : Blk)
    (hl : s'.log = .deferred b :: s.log) :
    ∃ i r, l = .newBlock i ∧ s.newQ[i]? = some (r, b) ∧
      (b.height > s.highest + 1 ∨ s.pending.has b.previous = true) := by
  have hne : ∀ (x : Obs), x ≠ .deferred b → s'.log ≠ x :: s.log := by
    intro x hx h; rw [hl] at h; cases h; exact hx rfl
  have hlen := congrArg List.length hl
  cases l with
  | applyBlock c =>
    rcases step_applyBlock hst with ⟨e, _, rfl⟩ | ⟨_, rfl⟩
    · simp at hlen
    · exact absurd rfl (hne _ (by simp))
  | callerReturns r => obtain ⟨_, e, _, rfl⟩ := step_callerReturns hst; exact absurd rfl (hne _ (by simp))
  | callerTimesOut r => obtain ⟨_, rfl⟩ := step_callerTimesOut hst; exact absurd rfl (hne _ (by simp))
  | newBlock i =>
    obtain ⟨_, r, c, hq, rfl⟩ := step_newBlock hst
    unfold handleNewBlock at hl
    cases ha : admission o { s with newQ := s.newQ.eraseIdx i } c with
    | some e =>
      rw [ha] at hl
      exact absurd (List.cons.inj hl).1 (by simp)
    | none =>
      rw [ha] at hl
      simp only at hl
      obtain ⟨m, p, hh', hf⟩ := addTables_frame { s with newQ := s.newQ.eraseIdx i } r c
      rcases addBlockEntry_cases { s with newQ := s.newQ.eraseIdx i } r c with ⟨h1, he⟩ | ⟨_, _, he⟩
      · rw [he] at hl
        have := (List.cons.inj hl).1
        cases this
        exact ⟨i, r, rfl, hq, h1⟩
      · rw [he, hf] at hl
        have := congrArg List.length hl
        simp at this
  | forkHeads heads lib =>
    obtain ⟨_, rfl⟩ := step_forkHeads hst
    exfalso
    have hd : ∀ t : AState, OnlyAnswers s.log t.log → t.log ≠ .deferred b :: s.log := by
      rintro t ⟨rs, ht, hall⟩ he
      rw [ht] at he
      cases rs with
      | nil => have := congrArg List.length he; simp at this
      | cons x rs =>
        have := (List.cons.inj he).1
        subst this
        exact hall _ (List.mem_cons_self ..)
    exact hd _ (onlyAnswers_forkHeads o s heads lib) hl
  | broadcast id height =>
    obtain ⟨_, rfl⟩ := step_broadcast hst
    rw [handleBroadcast_eq] at hlen; simp at hlen
  | tryBlock i =>
    obtain ⟨_, c, f, ht, rfl⟩ := step_tryBlock hst
    unfold handleTry at hl
    split at hl
    · split at hl <;> (have := congrArg List.length hl; simp at this)
    · exact absurd (List.cons.inj hl).1 (by simp)
  | status i =>
    obtain ⟨_, c, e, ha, rfl⟩ := step_status hst
    rcases handleStatus_cases o { s with apps := s.apps.eraseIdx i } c e with ⟨_, hs⟩ | ⟨_, _, hs⟩ | ⟨_, _, hs⟩
    · rw [hs] at hl; exact absurd (List.cons.inj hl).1 (by simp)
    · rw [hs] at hl; exact absurd (List.cons.inj hl).1 (by simp)
    · rw [hs, log_remove'] at hl
      exfalso
      have key : ∀ rs : List Nat, rs.map (fun r => Obs.answer r e) ++ .status c e :: s.log ≠ .deferred b :: s.log := by
        intro rs he
        cases rs with
        | nil => exact absurd (List.cons.inj he).1 (by simp)
        | cons r rs => exact absurd (List.cons.inj he).1 (by simp)
      exact key _ hl
  | delayDone i => obtain ⟨c, t, t', ha, _, rfl⟩ := step_delayDone hst; simp at hlen
  | delayTimeout i => obtain ⟨c, t, t', ha, _, rfl⟩ := step_delayTimeout hst; exact absurd rfl (hne _ (by simp))
  | work i =>
    obtain ⟨c, ha, ⟨_, rfl⟩ | ⟨_, rfl⟩⟩ := step_work hst
    · simp at hlen
    · exact absurd rfl (hne _ (by simp))
  | rpcReturn i e => obtain ⟨c, ha, rfl⟩ := step_rpcReturn hst; exact absurd rfl (hne _ (by simp))
  | retryDue i => obtain ⟨t, c, _, _, rfl⟩ := step_retryDue hst; simp [trySend] at hlen
  | tick d => rw [step_tick hst] at hlen; simp at hlen

/-- `exK` was deferred because its parent is being applied, `exFar` because of its height. -/
example : lastStop exS1.log exK.id = some (.deferred exK) ∧ lastStop exS1.log exFar.id = some (.deferred exFar) := by
  decide +kernel

/-! ## C63 -/

/-- C63, what holds: when the application of a block ends without error, every block waiting for it is scheduled.
Missing for the full statement: applications that end with an error although the chain accepted the block
(`C63_deferred_refuted`). -/
theorem C63_deferred_partial {o : AppOpts} {s s' : AState} {i : Nat} {a b : Blk} (h : Reachable o s)
    (ha : s.apps[i]? = some ⟨a, .done none⟩) (hst : step o s (.status i) = some s') (hw : Waiting s b)
    (hp : b.previous = a.id) : ∃ f, (b, f) ∈ s'.tries := by
  obtain ⟨f, hf⟩ := (C17_children (o := o) h a.id b).2 ⟨hw, hp⟩
  exact ⟨f, (C17_applied h ha hst).mem_iff.2 (List.mem_append_right _ hf)⟩

/-- C63 refuted: the chain accepts the parent and says so in a broadcast; the child arrives while the parent's
application is still waiting for the RPC, so it is deferred; the RPC then times out. The child now waits with nothing
scheduled and nothing running, although its parent is the accepted head. -/
theorem C63_deferred_refuted :
    ∃ s, App.run exO exS0 [.applyBlock exP, .newBlock 0, .tryBlock 0, .work 0, .broadcast exP.id 11, .applyBlock exK,
      .newBlock 0, .rpcReturn 0 (some (.sentinel .localRPCTimeout)), .status 0] = some s ∧
      exK ∈ waitingBlocks s ∧ exK.previous = exP.id ∧ s.highest = exP.height ∧
      s.tries = [] ∧ s.retries = [] ∧ s.apps = [] ∧ s.newQ = [] :=
  ⟨_, rfl, by decide +kernel, by decide +kernel, by decide +kernel, by decide +kernel, by decide +kernel,
    by decide +kernel, by decide +kernel⟩

example : ∃ s, App.run exO exS1 [.rpcReturn 0 none] = some s ∧ exK ∈ waitingBlocks s ∧ exK.previous = exP.id ∧
    s.apps[0]? = some ⟨exP, .done none⟩ := ⟨_, rfl, by decide +kernel, by decide +kernel, by decide +kernel⟩

/-! ## C64 -/

/-- C64, what holds: once the irreversible height has reached the height of a requested block, the request is answered,
refused or not yet looked at — provided all requests for that id carry the same height.
Missing for the full statement: requests that reuse an id with another height (`C64_outdated_refuted`). -/
theorem C64_outdated_partial {o : AppOpts} {s : AState} (h : Reachable o s) (r : Nat) (b : Blk)
    (hc : Obs.call r b ∈ s.log) (hl : b.height ≤ s.lib)
    (hsame : ∀ r' b', Obs.call r' b' ∈ s.log → b'.id = b.id → b'.height = b.height) :
    r ∈ queuedCalls s ∨ r ∈ answered s.log ∨ r ∈ refusedCalls s.log := by
  have h1 := C08_exactly_once h r b hc
  by_contra hno
  simp only [not_or] at hno
  obtain ⟨n1, n2, n3⟩ := hno
  rw [List.count_eq_zero.2 n1, List.count_eq_zero.2 n2, List.count_eq_zero.2 n3] at h1
  have hm : r ∈ held s := List.count_pos_iff.1 (by omega)
  obtain ⟨⟨id, x⟩, hx, hr⟩ := List.mem_flatMap.1 hm
  have hp := prov_reachable h
  have hg := (GoMap.get_eq_some_iff _ _ _).2 hx
  obtain ⟨b', hb', rfl⟩ := hp.chans id x r hg hr
  have := hp.callInj r b b' hc hb'
  subst this
  obtain ⟨r', hk⟩ := hp.entries _ x hg
  have hh := hsame r' x.block hk ((inv_reachable h).idx.key _ _ hg)
  have := (inv_reachable h).above _ x hg
  rw [hh] at this
  exact absurd hl (UInt64.not_le.2 this)

/-- C64 refuted: a forged block with the same id and a larger height holds the honest request beyond irreversibility. -/
theorem C64_outdated_refuted :
    ∃ s, App.run exO exS0 [.applyBlock ⟨[1], [0], 40, 0, [], [66]⟩, .newBlock 0, .applyBlock exP, .newBlock 0, .tryBlock 0,
      .work 0, .rpcReturn 0 (some (.sentinel .unknownPreviousBlock)), .status 0, .forkHeads [] 20] = some s ∧
      Obs.call 1 exP ∈ s.log ∧ exP.height ≤ s.lib ∧ 1 ∉ queuedCalls s ∧ 1 ∉ answered s.log ∧ 1 ∉ refusedCalls s.log :=
  ⟨_, rfl, by decide +kernel, by decide +kernel, by decide +kernel, by decide +kernel, by decide +kernel⟩

example : ∃ s, App.run exO exS1 [.forkHeads [] 12] = some s ∧ Obs.call 1 exK ∈ s.log ∧ exK.height ≤ s.lib ∧
    1 ∈ answered s.log := ⟨_, rfl, by decide +kernel, by decide +kernel, by decide +kernel⟩

end KP2P

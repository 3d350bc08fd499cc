import Verif.Props.ApplicatorSched
import Verif.Props.ForkWatchdog
/-!
# C73 – C75: fork bombs, the highest known block, and punctuality of the block applicator
-/

namespace KP2P
open App Spec

/-! ## What a step does to the fork watchdog and to the highest known height -/

/-- The event of fork-bomb detection that a step of the applicator stands for. -/
def forkEvent : Label → Option WOp
  | .applyBlock b => some (.add b)
  | .forkHeads _ L => some (.purge L)
  | _ => none

/-- The height reported by a step. -/
def reported : Label → Option Nat
  | .broadcast _ h => some h.toNat
  | _ => none

/-- The requests and reports of irreversibility in a run, oldest first. -/
def forkEvents (ls : List Label) : List WOp := ls.filterMap forkEvent

/-- The highest of the initial height and all broadcast heights. -/
def highestReported (hi : UInt64) (ls : List Label) : Nat := (ls.filterMap reported).foldl max hi.toNat

theorem step_frame {o : AppOpts} {s s' : AState} {l : Label} (hinv : Inv o s) (hst : step o s l = some s') :
    s'.watchdog = (match forkEvent l with | some op => (s.watchdog.op op).1 | none => s.watchdog) ∧
    s'.highest.toNat = (match reported l with | some h => max s.highest.toNat h | none => s.highest.toNat) := by
  cases l with
  | applyBlock b => rcases step_applyBlock hst with ⟨e, _, rfl⟩ | ⟨_, rfl⟩ <;> exact ⟨rfl, rfl⟩
  | callerReturns r => obtain ⟨_, e, _, rfl⟩ := step_callerReturns hst; exact ⟨rfl, rfl⟩
  | callerTimesOut r => obtain ⟨_, rfl⟩ := step_callerTimesOut hst; exact ⟨rfl, rfl⟩
  | newBlock i =>
    obtain ⟨_, r, b, hq, rfl⟩ := step_newBlock hst
    unfold handleNewBlock
    cases ha : admission o { s with newQ := s.newQ.eraseIdx i } b with
    | some e => exact ⟨rfl, rfl⟩
    | none =>
      simp only
      obtain ⟨m, p, hh', hf⟩ := addTables_frame { s with newQ := s.newQ.eraseIdx i } r b
      rcases addBlockEntry_cases { s with newQ := s.newQ.eraseIdx i } r b with ⟨_, he⟩ | ⟨_, _, he⟩ <;>
        (rw [he, hf]; exact ⟨rfl, rfl⟩)
  | forkHeads heads lib =>
    obtain ⟨_, rfl⟩ := step_forkHeads hst
    rw [handleForkHeads_eq]
    obtain ⟨_, h2, _⟩ := evict_spec (heights s.lib lib)
      { s with lib := lib, watchdog := s.watchdog.purge lib, tries := s.tries ++ heads.flatMap (kids o s) }
      (hinv.idx.of_eq rfl rfl rfl)
    exact ⟨h2.watchdog, congrArg UInt64.toNat h2.highest⟩
  | broadcast id height =>
    obtain ⟨_, rfl⟩ := step_broadcast hst
    rw [handleBroadcast_eq]
    refine ⟨rfl, ?_⟩
    simp only [reported]
    by_cases h : height > s.highest
    · rw [if_pos h]
      exact (max_eq_right (UInt64.lt_iff_toNat_lt.1 h).le).symm
    · rw [if_neg h]
      have : height.toNat ≤ s.highest.toNat := by
        rw [← UInt64.le_iff_toNat_le]; exact UInt64.not_lt.1 h
      exact (max_eq_left this).symm
  | tryBlock i =>
    obtain ⟨_, b, f, ht, rfl⟩ := step_tryBlock hst
    unfold handleTry
    split
    · split <;> exact ⟨rfl, rfl⟩
    · exact ⟨rfl, rfl⟩
  | status i =>
    obtain ⟨_, b, e, ha, rfl⟩ := step_status hst
    rcases handleStatus_cases o { s with apps := s.apps.eraseIdx i } b e with ⟨_, hs⟩ | ⟨_, _, hs⟩ | ⟨_, _, hs⟩
    · rw [hs]; exact ⟨rfl, rfl⟩
    · rw [hs]; exact ⟨rfl, rfl⟩
    · rw [hs]
      exact ⟨(onlyRemoved_remove _ _ _).watchdog, congrArg UInt64.toNat (onlyRemoved_remove _ _ _).highest⟩
  | delayDone i => obtain ⟨b, t, t', ha, _, rfl⟩ := step_delayDone hst; exact ⟨rfl, rfl⟩
  | delayTimeout i => obtain ⟨b, t, t', ha, _, rfl⟩ := step_delayTimeout hst; exact ⟨rfl, rfl⟩
  | work i => obtain ⟨b, ha, ⟨_, rfl⟩ | ⟨hl, rfl⟩⟩ := step_work hst <;> exact ⟨rfl, rfl⟩
  | rpcReturn i e => obtain ⟨b, ha, rfl⟩ := step_rpcReturn hst; exact ⟨rfl, rfl⟩
  | retryDue i => obtain ⟨t, b, _, _, rfl⟩ := step_retryDue hst; exact ⟨rfl, rfl⟩
  | tick d => rw [step_tick hst]; exact ⟨rfl, rfl⟩

theorem frame_run {o : AppOpts} {hi lib : UInt64} {T0 : Int} {ls : List Label} {s : AState}
    (hr : App.run o (App.init hi lib T0) ls = some s) :
    s.watchdog = (ForkWatchdog.new.run (forkEvents ls)).1 ∧ s.highest.toNat = highestReported hi ls := by
  induction ls using List.reverseRecOn generalizing s with
  | nil => cases hr; exact ⟨rfl, rfl⟩
  | append_singleton ls l ih =>
    obtain ⟨s1, h1, h2⟩ := run_snoc hr
    obtain ⟨i1, i2⟩ := ih h1
    obtain ⟨f1, f2⟩ := step_frame (inv_reachable ⟨hi, lib, T0, ls, h1⟩) h2
    constructor
    · rw [f1, i1]
      unfold forkEvents
      rw [List.filterMap_append]
      cases he : forkEvent l with
      | none => simp [he]
      | some op => simp only [List.filterMap_cons, he, List.filterMap_nil]; rw [ForkWatchdog.run_fst_snoc]
    · rw [f2, i2]
      unfold highestReported
      rw [List.filterMap_append]
      cases he : reported l with
      | none => simp [he]
      | some h => simp [he, List.foldl_append]

/-! ## C73 -/

/-- C73: a request is refused as a fork bomb — at once, without being queued — exactly if more than three different
blocks of its slot (same height, producer and parent) have been requested since that height was last reported
irreversible; every other request is queued. -/
theorem C73_refused_exactly {o : AppOpts} {hi lib : UInt64} {T0 : Int} {ls : List Label} {s s' : AState} {b : Blk}
    (hr : App.run o (App.init hi lib T0) ls = some s) (hst : step o s (.applyBlock b) = some s') :
    (TooManyForks (forkEvents ls ++ [.add b]) b ∧ s'.newQ = s.newQ ∧ s'.waiting = s.waiting ∧
      s'.log = [.refused s.nextReq (some (.sentinel .forkBomb)), .call s.nextReq b] ++ s.log) ∨
    (¬ TooManyForks (forkEvents ls ++ [.add b]) b ∧ s'.newQ = s.newQ ++ [(s.nextReq, b)] ∧
      s'.waiting = s.nextReq :: s.waiting ∧ s'.log = .call s.nextReq b :: s.log) := by
  have hw := (frame_run hr).1
  have hv := ForkWatchdog.verdict_iff (forkEvents ls) b
  rw [← hw] at hv
  rcases step_applyBlock hst with ⟨e, he, rfl⟩ | ⟨he, rfl⟩
  · left
    rw [he] at hv
    by_cases ht : TooManyForks (forkEvents ls ++ [.add b]) b
    · rw [if_pos ht] at hv
      cases hv
      exact ⟨ht, rfl, rfl, rfl⟩
    · rw [if_neg ht] at hv; cases hv
  · right
    rw [he] at hv
    by_cases ht : TooManyForks (forkEvents ls ++ [.add b]) b
    · rw [if_pos ht] at hv; cases hv
    · exact ⟨ht, rfl, rfl, rfl⟩

/-- Every waiting block was requested by one of the calls attached to it. -/
def Requested (s : AState) : Prop :=
  ∀ id x, s.byId.get id = some x → ∃ r ∈ x.chans, Obs.call r x.block ∈ s.log

theorem log_grows {o : AppOpts} {s s' : AState} {l : Label} (hinv : Inv o s) (hst : step o s l = some s') :
    ∀ x ∈ s.log, x ∈ s'.log := by
  obtain ⟨new, hl, _⟩ := step_log hinv hst
  intro x hx
  rw [hl]; exact List.mem_append_right _ hx

theorem requested_step {o : AppOpts} {s s' : AState} {l : Label} (hinv : Inv o s) (hp : Prov s) (h : Requested s)
    (hst : step o s l = some s') : Requested s' := by
  have hm := log_grows hinv hst
  have sub : (∀ id x, s'.byId.get id = some x → s.byId.get id = some x) → Requested s' := by
    intro hs id x hx
    obtain ⟨r, h1, h2⟩ := h id x (hs id x hx)
    exact ⟨r, h1, hm _ h2⟩
  cases l with
  | applyBlock b => rcases step_applyBlock hst with ⟨e, _, rfl⟩ | ⟨_, rfl⟩ <;> exact sub fun _ _ h => h
  | callerReturns r => obtain ⟨_, e, _, rfl⟩ := step_callerReturns hst; exact sub fun _ _ h => h
  | callerTimesOut r => obtain ⟨_, rfl⟩ := step_callerTimesOut hst; exact sub fun _ _ h => h
  | newBlock i =>
    obtain ⟨_, r, b, hq, rfl⟩ := step_newBlock hst
    unfold handleNewBlock at hm sub ⊢
    cases ha : admission o { s with newQ := s.newQ.eraseIdx i } b with
    | some e => rw [ha] at sub; exact sub fun _ _ h => h
    | none =>
      rw [ha] at hm
      simp only at hm ⊢
      have hg := get_addTables { s with newQ := s.newQ.eraseIdx i } r b
      have key : ∀ t : AState, (∀ x ∈ s.log, x ∈ t.log) →
          t.byId = (addTables { s with newQ := s.newQ.eraseIdx i } r b).byId → Requested t := by
        intro t ht e id x hx
        rw [e, hg] at hx
        by_cases hid : id = b.id
        · rw [if_pos hid] at hx
          simp only at hx
          cases hb : s.byId.get b.id with
          | none =>
            rw [hb] at hx
            cases hx
            exact ⟨r, by simp, ht _ (hp.newQ _ (mem_of_getElem? hq))⟩
          | some old =>
            rw [hb] at hx
            cases hx
            obtain ⟨r', h1, h2⟩ := h _ old hb
            exact ⟨r', List.mem_append_left _ h1, ht _ h2⟩
        · rw [if_neg hid] at hx
          obtain ⟨r', h1, h2⟩ := h id x hx
          exact ⟨r', h1, ht _ h2⟩
      refine key _ hm ?_
      rcases addBlockEntry_cases { s with newQ := s.newQ.eraseIdx i } r b with ⟨_, he⟩ | ⟨_, _, he⟩ <;> rw [he]
  | forkHeads heads lib =>
    obtain ⟨_, rfl⟩ := step_forkHeads hst
    rw [handleForkHeads_eq] at sub ⊢
    obtain ⟨_, _, h3⟩ := evict_spec (heights s.lib lib)
      { s with lib := lib, watchdog := s.watchdog.purge lib, tries := s.tries ++ heads.flatMap (kids o s) }
      (hinv.idx.of_eq rfl rfl rfl)
    refine sub fun id x hx => ?_
    simp only at hx
    rw [h3 id] at hx
    simp only at hx
    cases hg : s.byId.get id with
    | none => rw [hg] at hx; cases hx
    | some y =>
      rw [hg] at hx
      simp only [Option.bind_some] at hx
      split at hx
      · cases hx
      · exact hx
  | broadcast id height =>
    obtain ⟨_, rfl⟩ := step_broadcast hst
    rw [handleBroadcast_eq] at sub ⊢; exact sub fun _ _ h => h
  | tryBlock i =>
    obtain ⟨_, b, f, ht, rfl⟩ := step_tryBlock hst
    refine sub fun id x hx => ?_
    unfold handleTry at hx
    split at hx
    · split at hx <;> exact hx
    · exact hx
  | status i =>
    obtain ⟨_, b, e, ha, rfl⟩ := step_status hst
    refine sub fun id x hx => ?_
    rcases handleStatus_cases o { s with apps := s.apps.eraseIdx i } b e with ⟨_, hs⟩ | ⟨_, _, hs⟩ | ⟨_, _, hs⟩
    · rw [hs] at hx; exact hx
    · rw [hs] at hx; exact hx
    · rw [hs, get_remove] at hx
      split at hx
      · cases hx
      · exact hx
  | delayDone i => obtain ⟨b, t, t', ha, _, rfl⟩ := step_delayDone hst; exact sub fun _ _ h => h
  | delayTimeout i => obtain ⟨b, t, t', ha, _, rfl⟩ := step_delayTimeout hst; exact sub fun _ _ h => h
  | work i => obtain ⟨b, ha, ⟨_, rfl⟩ | ⟨hl, rfl⟩⟩ := step_work hst <;> exact sub fun _ _ h => h
  | rpcReturn i e => obtain ⟨b, ha, rfl⟩ := step_rpcReturn hst; exact sub fun _ _ h => h
  | retryDue i => obtain ⟨t, b, _, _, rfl⟩ := step_retryDue hst; exact sub fun _ _ h => h
  | tick d =>
    have := step_tick hst
    subst this
    exact sub fun _ _ h => h

theorem requested_run {o : AppOpts} {hi lib : UInt64} {T0 : Int} {ls : List Label} {s : AState}
    (hr : App.run o (App.init hi lib T0) ls = some s) : Requested s := by
  induction ls using List.reverseRecOn generalizing s with
  | nil => cases hr; intro id x hx; simp [App.init] at hx
  | append_singleton ls l ih =>
    obtain ⟨s1, h1, h2⟩ := run_snoc hr
    have hre : Reachable o s1 := ⟨hi, lib, T0, ls, h1⟩
    exact requested_step (inv_reachable hre) (prov_reachable hre) (ih h1) h2

/-- A call that is still queued or attached to a waiting block is not refused afterwards. -/
theorem not_refused_later {o : AppOpts} {hi lib : UInt64} {T0 : Int} {ls post : List Label} {s1 s : AState} {r : Nat}
    (h1 : App.run o (App.init hi lib T0) ls = some s1) (h2 : App.run o s1 post = some s) (hlt : r < s1.nextReq)
    (hn : r ∉ refusedCalls s1.log) : r ∉ refusedCalls s.log ∧ r < s.nextReq := by
  induction post using List.reverseRecOn generalizing s with
  | nil => cases h2; exact ⟨hn, hlt⟩
  | append_singleton post l ih =>
    obtain ⟨s2, h3, h4⟩ := run_snoc h2
    obtain ⟨i1, i2⟩ := ih h3
    have hre : Reachable o s2 := ⟨hi, lib, T0, ls ++ post, by rw [App.run_append, h1]; exact h3⟩
    have hinv := inv_reachable hre
    have hinv' := inv_step o s2 l s hinv h4
    cases l with
    | applyBlock b =>
      rcases step_applyBlock h4 with ⟨e, _, rfl⟩ | ⟨_, rfl⟩
      · refine ⟨?_, by simp only; omega⟩
        simp only [refusedCalls, List.filterMap_cons, List.mem_cons, not_or] at i1 ⊢
        exact ⟨by omega, i1⟩
      · refine ⟨?_, by simp only; omega⟩
        simpa only [refusedCalls, List.filterMap_cons] using i1
    | callerReturns r' =>
      obtain ⟨_, e, _, rfl⟩ := step_callerReturns h4
      exact ⟨by simpa only [refusedCalls, List.filterMap_cons] using i1, i2⟩
    | callerTimesOut r' =>
      obtain ⟨_, rfl⟩ := step_callerTimesOut h4
      exact ⟨by simpa only [refusedCalls, List.filterMap_cons] using i1, i2⟩
    | newBlock i =>
      obtain ⟨_, r', b, hq, rfl⟩ := step_newBlock h4
      unfold handleNewBlock
      cases ha : admission o { s2 with newQ := s2.newQ.eraseIdx i } b with
      | some e => exact ⟨by simpa [refusedCalls, answerAll] using i1, i2⟩
      | none =>
        simp only
        obtain ⟨m, p, hh', hf⟩ := addTables_frame { s2 with newQ := s2.newQ.eraseIdx i } r' b
        rcases addBlockEntry_cases { s2 with newQ := s2.newQ.eraseIdx i } r' b with ⟨_, he⟩ | ⟨_, _, he⟩
        · rw [he, hf]; exact ⟨by simpa only [refusedCalls, List.filterMap_cons] using i1, i2⟩
        · rw [he, hf]; exact ⟨i1, i2⟩
    | forkHeads heads L =>
      obtain ⟨_, rfl⟩ := step_forkHeads h4
      rw [handleForkHeads_eq]
      obtain ⟨_, h5, _⟩ := evict_spec (heights s2.lib L)
        { s2 with lib := L, watchdog := s2.watchdog.purge L, tries := s2.tries ++ heads.flatMap (kids o s2) }
        (hinv.idx.of_eq rfl rfl rfl)
      obtain ⟨rs, hl, _⟩ := h5.log
      have hn := h5.nextReq
      simp only at hl hn ⊢
      rw [hl, hn, refused_map]
      exact ⟨i1, i2⟩
    | broadcast id height =>
      obtain ⟨_, rfl⟩ := step_broadcast h4
      rw [handleBroadcast_eq]; exact ⟨i1, i2⟩
    | tryBlock i =>
      obtain ⟨_, b, f, ht, rfl⟩ := step_tryBlock h4
      unfold handleTry
      split
      · split <;> exact ⟨i1, i2⟩
      · exact ⟨by simpa only [refusedCalls, List.filterMap_cons] using i1, i2⟩
    | status i =>
      obtain ⟨_, b, e, ha, rfl⟩ := step_status h4
      rcases handleStatus_cases o { s2 with apps := s2.apps.eraseIdx i } b e with ⟨_, hs⟩ | ⟨_, _, hs⟩ | ⟨_, _, hs⟩
      · rw [hs]; exact ⟨by simpa only [trySend, afterStatus, refusedCalls, List.filterMap_cons] using i1, i2⟩
      · rw [hs]; exact ⟨by simpa only [afterStatus, refusedCalls, List.filterMap_cons] using i1, i2⟩
      · rw [hs]
        have hrm := onlyRemoved_remove { afterStatus { s2 with apps := s2.apps.eraseIdx i } b e with
          tries := s2.tries ++ wakes o { s2 with apps := s2.apps.eraseIdx i } b e } b.id e
        obtain ⟨rs, hl, _⟩ := hrm.log
        rw [hl, hrm.nextReq, refused_map]
        exact ⟨by simpa only [afterStatus, refusedCalls, List.filterMap_cons] using i1, i2⟩
    | delayDone i => obtain ⟨b, t, t', ha, _, rfl⟩ := step_delayDone h4; exact ⟨i1, i2⟩
    | delayTimeout i =>
      obtain ⟨b, t, t', ha, _, rfl⟩ := step_delayTimeout h4
      exact ⟨by simpa only [refusedCalls, List.filterMap_cons] using i1, i2⟩
    | work i =>
      obtain ⟨b, ha, ⟨_, rfl⟩ | ⟨hl, rfl⟩⟩ := step_work h4
      · exact ⟨i1, i2⟩
      · exact ⟨by simpa only [refusedCalls, List.filterMap_cons] using i1, i2⟩
    | rpcReturn i e =>
      obtain ⟨b, ha, rfl⟩ := step_rpcReturn h4
      exact ⟨by simpa only [refusedCalls, List.filterMap_cons] using i1, i2⟩
    | retryDue i => obtain ⟨t, b, _, _, rfl⟩ := step_retryDue h4; exact ⟨i1, i2⟩
    | tick d => rw [step_tick h4]; exact ⟨i1, i2⟩

/-- C73: a refused request is without effect — every block submitted to the chain was requested by a call that was
not refused. -/
theorem C73_only_accepted {o : AppOpts} {s : AState} (h : Reachable o s) (b : Blk) (hb : Obs.submit b ∈ s.log) :
    ∃ r, Obs.call r b ∈ s.log ∧ r ∉ refusedCalls s.log := by
  obtain ⟨hi, lib, T0, ls, hr⟩ := h
  obtain ⟨pre, l, post, s1, rfl, h1, hj⟩ := C16_justified hr b hb
  have hre : Reachable o s1 := ⟨hi, lib, T0, pre, h1⟩
  have hinv := inv_reachable hre
  have hprov := prov_reachable hre
  have h2 : App.run o s1 (l :: post) = some s := by
    rw [App.run_append, h1] at hr; exact hr
  have hmono : ∀ {ls : List Label} {t : AState}, App.run o s1 ls = some t → ∀ x ∈ s1.log, x ∈ t.log := by
    intro ls
    induction ls using List.reverseRecOn with
    | nil => intro t ht x hx; cases ht; exact hx
    | append_singleton ls l ih =>
      intro t ht x hx
      obtain ⟨s2, h3, h4⟩ := run_snoc ht
      have : Reachable o s2 := ⟨hi, lib, T0, pre ++ ls, by rw [App.run_append, h1]; exact h3⟩
      exact log_grows (inv_reachable this) h4 x (ih h3 x hx)
  have hnd : (tokens s1).Nodup := hinv.tokens.nodup_iff.2 List.nodup_range
  have key : ∃ r, Obs.call r b ∈ s1.log ∧ r ∉ refusedCalls s1.log := by
    have hw : Waiting s1 b → ∃ r, Obs.call r b ∈ s1.log ∧ r ∉ refusedCalls s1.log := by
      rintro ⟨x, hx, rfl⟩
      obtain ⟨r, hr1, hr2⟩ := requested_run h1 _ x hx
      refine ⟨r, hr2, fun hr3 => ?_⟩
      have hheld : r ∈ held s1 :=
        List.mem_flatMap.2 ⟨(x.block.id, x), (GoMap.get_eq_some_iff _ _ _).1 hx, hr1⟩
      unfold tokens at hnd
      have := List.disjoint_of_nodup_append hnd
      exact this (List.mem_append_left _ (List.mem_append_right _ hheld)) hr3
    cases hj with
    | arrival i r _ hq _ _ =>
      have hm := mem_of_getElem? hq
      refine ⟨r, hprov.newQ _ hm, fun hr3 => ?_⟩
      unfold tokens at hnd
      have := List.disjoint_of_nodup_append hnd
      exact this (List.mem_append_left _ (List.mem_append_left _ (List.mem_map.2 ⟨_, hm, rfl⟩))) hr3
    | parentApplied i a _ _ _ hw' => exact hw hw'
    | parentBroadcast n _ hw' => exact hw hw'
    | parentHead heads L _ _ hw' => exact hw hw'
  obtain ⟨r, hr1, hr2⟩ := key
  exact ⟨r, hmono h2 _ hr1, (not_refused_later h1 h2 (hprov.callLt r b hr1) hr2).1⟩

/-- Three requests in one slot are queued, the fourth is refused, and after the height is irreversible the slot is
free again. -/
def exFork (n : UInt8) : Blk := ⟨[n], [0], 11, 0, [7], []⟩

example : ∃ s, App.run exO exS0 [.applyBlock (exFork 1), .applyBlock (exFork 2), .applyBlock (exFork 2),
    .applyBlock (exFork 3), .applyBlock (exFork 4)] = some s ∧ s.newQ.length = 4 ∧
    Obs.refused 4 (some (.sentinel .forkBomb)) ∈ s.log := ⟨_, rfl, by decide +kernel, by decide +kernel⟩

example : ∃ s, App.run exO exS0 [.applyBlock (exFork 1), .applyBlock (exFork 2), .applyBlock (exFork 3),
    .forkHeads [] 11, .applyBlock (exFork 4)] = some s ∧ s.newQ.length = 4 ∧ refusedCalls s.log = [] :=
  ⟨_, rfl, by decide +kernel, by decide +kernel⟩

example : Obs.submit exP ∈ exS1.log := by decide +kernel

/-! ## C74 -/

/-- C74: after every run the height from which arriving blocks are measured is the highest of the head height at
start-up and all heights broadcast as accepted. -/
theorem C74_highest {o : AppOpts} {hi lib : UInt64} {T0 : Int} {ls : List Label} {s : AState}
    (hr : App.run o (App.init hi lib T0) ls = some s) : s.highest.toNat = highestReported hi ls :=
  (frame_run hr).2

theorem foldl_max_ge (l : List Nat) (a : Nat) : a ≤ l.foldl max a ∧ (∀ x ∈ l, x ≤ l.foldl max a) ∧
    (l.foldl max a = a ∨ l.foldl max a ∈ l) := by
  induction l generalizing a with
  | nil => simp
  | cons x l ih =>
    obtain ⟨h1, h2, h3⟩ := ih (max a x)
    simp only [List.foldl_cons]
    refine ⟨by omega, ?_, ?_⟩
    · intro y hy
      rcases List.mem_cons.1 hy with rfl | hy
      · omega
      · exact h2 y hy
    · rcases h3 with h3 | h3
      · rw [h3]
        rcases Nat.le_total a x with h | h
        · right; simp [Nat.max_eq_right h]
        · left; exact Nat.max_eq_left h
      · right; exact List.mem_cons_of_mem _ h3

/-- C74, end to end: a queued request for a block is answered with the too-high error iff the block is more than
`MaxHeightDelta` above the head height at start-up and above every height broadcast so far. (`h1`: no 64-bit overflow,
see C13.) -/
theorem C74_too_high {o : AppOpts} {hi lib : UInt64} {T0 : Int} {ls : List Label} {s s' : AState} {i r : Nat} {b : Blk}
    (hr : App.run o (App.init hi lib T0) ls = some s) (hq : s.newQ[i]? = some (r, b))
    (hst : step o s (.newBlock i) = some s') (h1 : s.highest.toNat + o.maxHeightDelta.toNat < 2 ^ 64) :
    s'.log = .answer r (some (.sentinel .maxHeight)) :: s.log ↔
      hi.toNat + o.maxHeightDelta.toNat < b.height.toNat ∧
      ∀ id h, Label.broadcast id h ∈ ls → h.toNat + o.maxHeightDelta.toNat < b.height.toNat := by
  have hh := C74_highest hr
  obtain ⟨g1, g2, g3⟩ := foldl_max_ge (ls.filterMap reported) hi.toNat
  have ha : (s.highest + o.maxHeightDelta).toNat = s.highest.toNat + o.maxHeightDelta.toNat := by
    rw [UInt64.toNat_add]; omega
  have hiff : b.height > s.highest + o.maxHeightDelta ↔
      hi.toNat + o.maxHeightDelta.toNat < b.height.toNat ∧
      ∀ id h, Label.broadcast id h ∈ ls → h.toNat + o.maxHeightDelta.toNat < b.height.toNat := by
    rw [gt_iff_lt, UInt64.lt_iff_toNat_lt, ha, hh]
    unfold highestReported
    constructor
    · intro hlt
      refine ⟨by omega, fun id h hm => ?_⟩
      have := g2 h.toNat (List.mem_filterMap.2 ⟨_, hm, rfl⟩)
      omega
    · rintro ⟨k1, k2⟩
      rcases g3 with g3 | g3
      · rw [g3]; exact k1
      · obtain ⟨l, hl, he⟩ := List.mem_filterMap.1 g3
        cases l <;> simp only [reported, Option.some.injEq, reduceCtorEq] at he
        rename_i id h
        rw [← he]; exact k2 id h hl
  rw [← hiff]
  have he := C13_effect hq hst
  unfold admission at he
  constructor
  · intro hl
    by_contra hn
    rw [if_neg hn] at he
    split at he
    · rename_i hx
      rw [he] at hl
      simp only [List.cons.injEq, Obs.answer.injEq, true_and, and_true, Option.some.injEq] at hl
      subst hl
      split at hx
      · cases hx
      · split at hx <;> cases hx
    · rename_i hx
      have := he.1
      rw [hl] at this
      simp [answered] at this
  · intro hgt
    rw [if_pos hgt] at he
    simp only at he
    rw [he]

example : ∃ s, App.run exO exS0 [.broadcast [9] 20, .broadcast [9] 15, .applyBlock { exP with height := 80 }] = some s ∧
    s.newQ[0]? = some (0, { exP with height := 80 }) ∧ s.highest = 20 ∧
    s.highest.toNat + exO.maxHeightDelta.toNat < 2 ^ 64 :=
  ⟨_, rfl, by decide +kernel, by decide +kernel, by decide +kernel⟩

/-! ## C75 -/

/-- What holds of the timers of a block that is held back. -/
def Punctual (o : AppOpts) (s : AState) : Prop :=
  ∀ a ∈ s.apps, ∀ t t', a.stage = .delaying t t' →
    t + o.delayThreshold ≤ goBlockTime a.blk.timestamp ∧ t' ≤ s.now + o.delayTimeout

theorem Punctual.of_apps {o : AppOpts} {s s' : AState} (h : Punctual o s) (hn : s'.now = s.now)
    (ha : ∀ a ∈ s'.apps, a ∈ s.apps ∨ ∀ t t', a.stage ≠ .delaying t t') : Punctual o s' := by
  intro a h' t t' hs
  rw [hn]
  rcases ha a h' with h' | h'
  · exact h a h' t t' hs
  · exact absurd hs (h' t t')

theorem punctual_step {o : AppOpts} {s s' : AState} {l : Label} (hinv : Inv o s) (h : Punctual o s)
    (hst : step o s l = some s') : Punctual o s' := by
  have hset : ∀ {i : Nat} {a' : BApp}, (∀ t t', a'.stage ≠ .delaying t t') →
      ∀ a ∈ s.apps.set i a', a ∈ s.apps ∨ ∀ t t', a.stage ≠ .delaying t t' := by
    intro i a' ha' a ha
    rcases List.mem_or_eq_of_mem_set ha with ha | rfl
    · exact Or.inl ha
    · exact Or.inr ha'
  cases l with
  | applyBlock b =>
    rcases step_applyBlock hst with ⟨e, _, rfl⟩ | ⟨_, rfl⟩ <;> exact h.of_apps rfl fun a ha => Or.inl ha
  | callerReturns r => obtain ⟨_, e, _, rfl⟩ := step_callerReturns hst; exact h.of_apps rfl fun a ha => Or.inl ha
  | callerTimesOut r => obtain ⟨_, rfl⟩ := step_callerTimesOut hst; exact h.of_apps rfl fun a ha => Or.inl ha
  | newBlock i =>
    obtain ⟨_, r, b, hq, rfl⟩ := step_newBlock hst
    unfold handleNewBlock
    cases ha : admission o { s with newQ := s.newQ.eraseIdx i } b with
    | some e => exact h.of_apps rfl fun a ha => Or.inl ha
    | none =>
      simp only
      obtain ⟨m, p, hh', hf⟩ := addTables_frame { s with newQ := s.newQ.eraseIdx i } r b
      rcases addBlockEntry_cases { s with newQ := s.newQ.eraseIdx i } r b with ⟨_, he⟩ | ⟨_, _, he⟩ <;>
        (rw [he, hf]; exact h.of_apps rfl fun a ha => Or.inl ha)
  | forkHeads heads lib =>
    obtain ⟨_, rfl⟩ := step_forkHeads hst
    rw [handleForkHeads_eq]
    obtain ⟨_, h2, _⟩ := evict_spec (heights s.lib lib)
      { s with lib := lib, watchdog := s.watchdog.purge lib, tries := s.tries ++ heads.flatMap (kids o s) }
      (hinv.idx.of_eq rfl rfl rfl)
    refine h.of_apps h2.now fun a ha => Or.inl ?_
    have := h2.apps
    simp only at this ha
    rw [this] at ha
    exact ha
  | broadcast id height =>
    obtain ⟨_, rfl⟩ := step_broadcast hst
    rw [handleBroadcast_eq]; exact h.of_apps rfl fun a ha => Or.inl ha
  | tryBlock i =>
    obtain ⟨_, b, f, ht, rfl⟩ := step_tryBlock hst
    unfold handleTry
    split
    · split <;> exact h.of_apps rfl fun a ha => Or.inl ha
    · intro a ha t t' hs
      rcases List.mem_append.1 ha with ha | ha
      · exact h a ha t t' hs
      · simp only [List.mem_singleton] at ha
        subst ha
        unfold beginApp at hs ⊢
        simp only at hs ⊢
        split at hs
        · rename_i hgt
          simp only [Stage.delaying.injEq] at hs
          obtain ⟨rfl, rfl⟩ := hs
          rw [if_pos hgt]
          refine ⟨?_, Int.le_refl _⟩
          simp only
          unfold satDur
          omega
        · cases hs
  | status i =>
    obtain ⟨_, b, e, ha, rfl⟩ := step_status hst
    have hap : ∀ x ∈ s.apps.eraseIdx i, x ∈ s.apps := fun x hx => List.mem_of_mem_eraseIdx hx
    rcases handleStatus_cases o { s with apps := s.apps.eraseIdx i } b e with ⟨_, hs⟩ | ⟨_, _, hs⟩ | ⟨_, _, hs⟩
    · rw [hs]; exact h.of_apps rfl fun a ha => Or.inl (hap a ha)
    · rw [hs]; exact h.of_apps rfl fun a ha => Or.inl (hap a ha)
    · rw [hs]
      refine h.of_apps (onlyRemoved_remove _ _ _).now fun a ha => Or.inl ?_
      rw [(onlyRemoved_remove _ _ _).apps] at ha
      exact hap a ha
  | delayDone i =>
    obtain ⟨b, t, t', ha, ht, rfl⟩ := step_delayDone hst
    exact h.of_apps rfl (hset (by simp))
  | delayTimeout i =>
    obtain ⟨b, t, t', ha, _, rfl⟩ := step_delayTimeout hst
    exact h.of_apps rfl (hset (by simp))
  | work i =>
    obtain ⟨b, ha, ⟨_, rfl⟩ | ⟨_, rfl⟩⟩ := step_work hst <;> exact h.of_apps rfl (hset (by simp))
  | rpcReturn i e =>
    obtain ⟨b, ha, rfl⟩ := step_rpcReturn hst
    exact h.of_apps rfl (hset (by simp))
  | retryDue i => obtain ⟨t, b, _, _, rfl⟩ := step_retryDue hst; exact h.of_apps rfl fun a ha => Or.inl ha
  | tick d =>
    rw [step_tick hst]
    intro a ha t t' hs
    have := h a ha t t' hs
    simp only
    omega

theorem punctual_reachable {o : AppOpts} {s : AState} (h : Reachable o s) : Punctual o s := by
  obtain ⟨hi, lib, T0, ls, hr⟩ := h
  have : Inv o s ∧ Punctual o s := by
    refine run_induction (P := fun s => Inv o s ∧ Punctual o s) ⟨inv_init _ _ _ _, ?_⟩ ?_ hr
    · intro a ha; simp [App.init] at ha
    · intro s l s' hp hst
      exact ⟨inv_step o s l s' hp.1 hst, punctual_step hp.1 hp.2 hst⟩
  exact this.2

/-- C75: an application of a block whose time stamp (milliseconds) is at most `DelayThreshold` ahead goes to the
workers at once. -/
theorem C75_no_delay (o : AppOpts) (s : AState) (i : Nat) (b : Blk) (f : Bool) (s' : AState)
    (ht : s.tries[i]? = some (b, f)) (hst : step o s (.tryBlock i) = some s')
    (hnew : ∀ a ∈ s.apps, a.blk.id ≠ b.id) (hre : Reachable o s)
    (htime : (b.timestamp.toNat : Int) * 1000000 ≤ s.now + o.delayThreshold) :
    s'.apps = s.apps ++ [⟨b, .queued⟩] := by
  obtain ⟨_, b', f', ht', rfl⟩ := step_tryBlock hst
  rw [ht] at ht'
  cases ht'
  have hp : s.pending.has b.id = false := by
    rw [Bool.eq_false_iff]
    intro hp
    obtain ⟨a, ha, he⟩ := List.mem_map.1 (((inv_reachable hre).pend b.id).1 hp)
    exact hnew a ha he
  unfold handleTry
  simp only
  rw [if_neg (by rw [hp]; decide)]
  unfold beginApp
  simp only
  rw [if_neg]
  unfold goBlockTime
  omega

/-- C75: a block that is held back can go to the workers as soon as its time stamp is no more than `DelayThreshold`
ahead. -/
theorem C75_released {o : AppOpts} {s : AState} (hre : Reachable o s) (i : Nat) (b : Blk) (t t' : Int)
    (ha : s.apps[i]? = some ⟨b, .delaying t t'⟩)
    (htime : (b.timestamp.toNat : Int) * 1000000 ≤ s.now + o.delayThreshold) :
    step o s (.delayDone i) = some { s with apps := s.apps.set i ⟨b, .queued⟩ } := by
  have h := (punctual_reachable hre _ (mem_of_getElem? ha) t t' rfl).1
  have ht : t ≤ s.now := by
    unfold goBlockTime at h
    simp only at h
    omega
  simp [step, ha, ht]

/-- C75: no block is held back for longer than `DelayTimeout`: when that much time has passed, it can leave the delay
whatever its time stamp is. -/
theorem C75_bounded {o : AppOpts} {s : AState} (hre : Reachable o s) (i : Nat) (b : Blk) (t t' : Int)
    (ha : s.apps[i]? = some ⟨b, .delaying t t'⟩) (d : Nat) (hd : o.delayTimeout ≤ d) :
    ∃ s', App.run o s [.tick d, .delayTimeout i] = some s' ∧ s'.apps = s.apps.set i ⟨b, .done none⟩ := by
  have h := (punctual_reachable hre _ (mem_of_getElem? ha) t t' rfl).2
  have ht : t' ≤ s.now + d := by omega
  refine ⟨{ s with now := s.now + d, apps := s.apps.set i ⟨b, .done none⟩, log := .delayTimeout b :: s.log }, ?_, rfl⟩
  simp [App.run, step, ha, ht]

example : ∃ s, App.run exO exS0 [.applyBlock exTen, .newBlock 0, .tryBlock 0, .tick 6000000000] = some s ∧
    s.apps[0]? = some ⟨exTen, .delaying 6000000000 60000000000⟩ ∧
    (exTen.timestamp.toNat : Int) * 1000000 ≤ s.now + exO.delayThreshold :=
  ⟨_, rfl, by decide +kernel, by decide +kernel⟩

example : ∃ s, App.run exO exS0 [.applyBlock exP, .newBlock 0] = some s ∧ s.tries[0]? = some (exP, false) ∧
    (∀ a ∈ s.apps, a.blk.id ≠ exP.id) ∧ (exP.timestamp.toNat : Int) * 1000000 ≤ s.now + exO.delayThreshold :=
  ⟨_, rfl, by decide +kernel, by decide +kernel, by decide +kernel⟩

end KP2P

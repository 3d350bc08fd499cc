import Verif.Spec.AllAccepted
import Verif.Proof.ChainLink
import Verif.Props.ApplicatorMore
/-!
# Why all blocks handed over are accepted: the invariant behind C125
-/

namespace KP2P
namespace Link

open App (Waiting Known)

theorem Clean.back {S : Blk → Prop} {log log' : List Obs} (hsub : ∀ x ∈ log, x ∈ log') (h : Clean S log') : Clean S log where
  one b hb c hc hid := h.one b hb c (hc.mono hsub) hid
  refused b r e hb hc hr := h.refused b r e hb (hsub _ hc) (hsub _ hr)
  admitted b r x hb hx hc ha := h.admitted b r x hb hx (hsub _ hc) (hsub _ ha)
  willing b e hb hs := h.willing b e hb (hsub _ hs)
  patient b hb hd := h.patient b hb (hsub _ hd)
  parents b hb := (h.parents b hb).imp_right fun hp c e hid hs => hp c e hid (hsub _ hs)

/-! ### Single steps of the applicator -/

/-- A waiting block stops waiting only when an application of it ends for good, or when it is evicted. -/
theorem leaves {o : AppOpts} {s s' : AState} {l : App.Label} {b : Blk} (hinv : App.Inv o s) (hst : App.step o s l = some s')
    (hw : Waiting s b) (hw' : ¬ Waiting s' b) :
    (∃ i c e, l = .status i ∧ s.apps[i]? = some ⟨c, .done e⟩ ∧ c.id = b.id ∧ errIs e .blockState = false ∧
      errIs e .unknownPreviousBlock = false) ∨
    ∃ heads lib, l = .forkHeads heads lib ∧ b.height ≤ lib := by
  have same : ∀ t : AState, s' = t → t.byId = s.byId → False := by
    rintro t rfl h
    unfold Waiting at *
    rw [h] at hw'; exact hw' hw
  cases l with
  | applyBlock c => rcases App.step_applyBlock hst with ⟨e, _, h⟩ | ⟨_, h⟩ <;> exact (same _ h rfl).elim
  | callerReturns r => obtain ⟨_, e, _, h⟩ := App.step_callerReturns hst; exact (same _ h rfl).elim
  | callerTimesOut r => obtain ⟨_, h⟩ := App.step_callerTimesOut hst; exact (same _ h rfl).elim
  | newBlock i =>
    obtain ⟨_, r, c, hq, h⟩ := App.step_newBlock hst
    unfold App.handleNewBlock at h
    cases ha : App.admission o { s with newQ := s.newQ.eraseIdx i } c with
    | some e => rw [ha] at h; exact (same _ h rfl).elim
    | none =>
      rw [ha] at h
      simp only at h
      exfalso
      obtain ⟨x, hx, hxb⟩ := hw
      have hget := App.get_addTables { s with newQ := s.newQ.eraseIdx i } r c b.id
      have hby : s'.byId = (App.addTables { s with newQ := s.newQ.eraseIdx i } r c).byId := by
        rcases App.addBlockEntry_cases { s with newQ := s.newQ.eraseIdx i } r c with ⟨_, he⟩ | ⟨_, _, he⟩ <;> rw [h, he]
      apply hw'
      unfold Waiting
      rw [hby, hget]
      split
      · rename_i hid
        rw [hid] at hx
        simp only [hx]
        exact ⟨_, rfl, hxb⟩
      · exact ⟨x, hx, hxb⟩
  | forkHeads heads lib =>
    right
    refine ⟨heads, lib, rfl, ?_⟩
    obtain ⟨_, h⟩ := App.step_forkHeads hst
    rw [App.handleForkHeads_eq] at h
    obtain ⟨_, _, h3⟩ := App.evict_spec (App.heights s.lib lib)
      { s with lib := lib, watchdog := s.watchdog.purge lib, tries := s.tries ++ heads.flatMap (App.kids o s) }
      (hinv.idx.of_eq rfl rfl rfl)
    obtain ⟨x, hx, hxb⟩ := hw
    by_contra hn
    apply hw'
    refine ⟨x, ?_, hxb⟩
    rw [h]
    simp only [h3, hx, Option.bind_some]
    rw [if_neg]
    intro hm
    have := (heights_above (hinv.above _ x hx)).1 hm
    rw [hxb] at this
    exact hn this
  | broadcast id height =>
    obtain ⟨_, h⟩ := App.step_broadcast hst
    rw [App.handleBroadcast_eq] at h
    exact (same _ h rfl).elim
  | tryBlock i =>
    obtain ⟨_, c, f, ht, h⟩ := App.step_tryBlock hst
    unfold App.handleTry at h
    refine (same _ h ?_).elim
    split
    · split <;> rfl
    · rfl
  | status i =>
    obtain ⟨_, c, e, ha, h⟩ := App.step_status hst
    rcases App.handleStatus_cases o { s with apps := s.apps.eraseIdx i } c e with ⟨hb, hs⟩ | ⟨hb, hu, hs⟩ | ⟨hb, hu, hs⟩
    · rw [hs] at h; exact (same _ h rfl).elim
    · rw [hs] at h; exact (same _ h rfl).elim
    · rw [hs] at h
      left
      refine ⟨i, c, e, rfl, ha, ?_, hb, hu⟩
      by_contra hne
      have hg := App.get_remove { App.afterStatus { s with apps := s.apps.eraseIdx i } c e with
        tries := s.tries ++ App.wakes o { s with apps := s.apps.eraseIdx i } c e } c.id e b.id
      rw [if_neg (fun hx => hne hx.symm)] at hg
      apply hw'
      obtain ⟨x, hx, hxb⟩ := hw
      refine ⟨x, ?_, hxb⟩
      rw [h]
      exact hg.trans hx
  | delayDone i => obtain ⟨c, t, t', ha, _, h⟩ := App.step_delayDone hst; exact (same _ h rfl).elim
  | delayTimeout i => obtain ⟨c, t, t', ha, _, h⟩ := App.step_delayTimeout hst; exact (same _ h rfl).elim
  | work i => obtain ⟨c, ha, ⟨_, h⟩ | ⟨_, h⟩⟩ := App.step_work hst <;> exact (same _ h rfl).elim
  | rpcReturn i e => obtain ⟨c, ha, h⟩ := App.step_rpcReturn hst; exact (same _ h rfl).elim
  | retryDue i => obtain ⟨t, c, hr, _, h⟩ := App.step_retryDue hst; exact (same _ h rfl).elim
  | tick d => exact (same _ (App.step_tick hst) rfl).elim

/-- How an application comes to an end. -/
theorem ended {o : AppOpts} {s s' : AState} {l : App.Label} {a : BApp} {e : Option Err} (hinv : App.Inv o s)
    (hst : App.step o s l = some s') (hm : a ∈ s'.apps) (he : a.stage = .done e) :
    a ∈ s.apps ∨ (∃ i, l = .rpcReturn i e ∧ s.apps[i]? = some ⟨a.blk, .inRPC⟩) ∨
      (e = some (.sentinel .blockIrreversibility) ∧ ⟨a.blk, .queued⟩ ∈ s.apps) ∨
      (e = none ∧ Obs.delayTimeout a.blk ∈ s'.log) := by
  have setA : ∀ (i : Nat) (c : Blk) (st : Stage), s'.apps = s.apps.set i ⟨c, st⟩ → a ∈ s.apps ∨ a = ⟨c, st⟩ := by
    intro i c st h
    rw [h] at hm
    exact List.mem_or_eq_of_mem_set hm
  cases l with
  | applyBlock c => rcases App.step_applyBlock hst with ⟨e, _, h⟩ | ⟨_, h⟩ <;> (rw [h] at hm; exact Or.inl hm)
  | callerReturns r => obtain ⟨_, e, _, h⟩ := App.step_callerReturns hst; rw [h] at hm; exact Or.inl hm
  | callerTimesOut r => obtain ⟨_, h⟩ := App.step_callerTimesOut hst; rw [h] at hm; exact Or.inl hm
  | newBlock i =>
    obtain ⟨_, r, c, hq, h⟩ := App.step_newBlock hst
    unfold App.handleNewBlock at h
    obtain ⟨m, p, q, hf⟩ := App.addTables_frame { s with newQ := s.newQ.eraseIdx i } r c
    cases ha : App.admission o { s with newQ := s.newQ.eraseIdx i } c with
    | some e => rw [ha] at h; rw [h] at hm; exact Or.inl hm
    | none =>
      rw [ha] at h
      simp only at h
      rcases App.addBlockEntry_cases { s with newQ := s.newQ.eraseIdx i } r c with ⟨_, he⟩ | ⟨_, _, he⟩ <;>
        (rw [h, he, hf] at hm; exact Or.inl hm)
  | forkHeads heads lib =>
    obtain ⟨_, h⟩ := App.step_forkHeads hst
    rw [App.handleForkHeads_eq] at h
    have h2 := (App.evict_spec (App.heights s.lib lib)
      { s with lib := lib, watchdog := s.watchdog.purge lib, tries := s.tries ++ heads.flatMap (App.kids o s) }
      (hinv.idx.of_eq rfl rfl rfl)).2.1.apps
    rw [h] at hm
    simp only at hm h2
    rw [h2] at hm; exact Or.inl hm
  | broadcast id height =>
    obtain ⟨_, h⟩ := App.step_broadcast hst
    rw [App.handleBroadcast_eq] at h
    rw [h] at hm; exact Or.inl hm
  | tryBlock i =>
    obtain ⟨_, c, f, ht, h⟩ := App.step_tryBlock hst
    unfold App.handleTry at h
    split at h
    · left
      have : s'.apps = s.apps := by rw [h]; split <;> rfl
      rw [this] at hm; exact hm
    · rw [h] at hm
      rcases List.mem_append.1 hm with hm | hm
      · exact Or.inl hm
      · exfalso
        rw [List.mem_singleton.1 hm] at he
        unfold App.beginApp at he
        dsimp only at he
        split at he <;> cases he
  | status i =>
    obtain ⟨_, c, e', ha, h⟩ := App.step_status hst
    left
    refine List.mem_of_mem_eraseIdx (i := i) ?_
    rcases App.handleStatus_cases o { s with apps := s.apps.eraseIdx i } c e' with ⟨hb, hs⟩ | ⟨hb, hu, hs⟩ | ⟨hb, hu, hs⟩
    · rw [h, hs] at hm; exact hm
    · rw [h, hs] at hm; exact hm
    · rw [h, hs, (App.onlyRemoved_remove _ _ _).apps] at hm; exact hm
  | delayDone i =>
    obtain ⟨c, t, t', ha, _, h⟩ := App.step_delayDone hst
    rcases setA i c .queued (by rw [h]) with h1 | rfl
    · exact Or.inl h1
    · cases he
  | delayTimeout i =>
    obtain ⟨c, t, t', ha, _, h⟩ := App.step_delayTimeout hst
    rcases setA i c (.done none) (by rw [h]) with h1 | rfl
    · exact Or.inl h1
    · cases he
      exact Or.inr (Or.inr (Or.inr ⟨rfl, by rw [h]; exact List.mem_cons_self⟩))
  | work i =>
    obtain ⟨c, ha, ⟨_, h⟩ | ⟨_, h⟩⟩ := App.step_work hst
    · rcases setA i c (.done (some (.sentinel .blockIrreversibility))) (by rw [h]) with h1 | rfl
      · exact Or.inl h1
      · cases he
        exact Or.inr (Or.inr (Or.inl ⟨rfl, App.mem_of_getElem? ha⟩))
    · rcases setA i c .inRPC (by rw [h]) with h1 | rfl
      · exact Or.inl h1
      · cases he
  | rpcReturn i e' =>
    obtain ⟨c, ha, h⟩ := App.step_rpcReturn hst
    rcases setA i c (.done e') (by rw [h]) with h1 | rfl
    · exact Or.inl h1
    · cases he
      exact Or.inr (Or.inl ⟨i, rfl, ha⟩)
  | retryDue i => obtain ⟨t, c, hr, _, h⟩ := App.step_retryDue hst; rw [h] at hm; exact Or.inl hm
  | tick d => rw [App.step_tick hst] at hm; exact Or.inl hm

theorem mem_answers {r : Nat} {e e' : Option Err} {rs : List Nat} (h : Obs.answer r e ∈ rs.map fun r => Obs.answer r e') :
    r ∈ rs ∧ e = e' := by
  obtain ⟨r', hr, he⟩ := List.mem_map.1 h
  cases he; exact ⟨hr, rfl⟩

/-- Where answers come from. -/
theorem answers {o : AppOpts} {s s' : AState} {l : App.Label} {r : Nat} {e : Option Err} (hinv : App.Inv o s)
    (hst : App.step o s l = some s') (hm : Obs.answer r e ∈ s'.log) :
    Obs.answer r e ∈ s.log ∨ (∃ x, OwnError x ∧ e = some (.sentinel x)) ∨
      ∃ i c x, l = .status i ∧ s.apps[i]? = some ⟨c, .done e⟩ ∧ errIs e .blockState = false ∧
        errIs e .unknownPreviousBlock = false ∧ s.byId.get c.id = some x ∧ r ∈ x.chans := by
  cases l with
  | applyBlock c =>
    rcases App.step_applyBlock hst with ⟨e, _, h⟩ | ⟨_, h⟩ <;> (rw [h] at hm; left; simpa using hm)
  | callerReturns r => obtain ⟨_, e, _, h⟩ := App.step_callerReturns hst; rw [h] at hm; left; simpa using hm
  | callerTimesOut r => obtain ⟨_, h⟩ := App.step_callerTimesOut hst; rw [h] at hm; left; simpa using hm
  | newBlock i =>
    obtain ⟨_, r', c, hq, h⟩ := App.step_newBlock hst
    unfold App.handleNewBlock at h
    obtain ⟨m, p, q, hf⟩ := App.addTables_frame { s with newQ := s.newQ.eraseIdx i } r' c
    cases ha : App.admission o { s with newQ := s.newQ.eraseIdx i } c with
    | some e' =>
      rw [ha] at h
      rw [h] at hm
      simp only [App.answerAll, List.map_cons, List.map_nil, List.reverse_cons, List.reverse_nil, List.nil_append,
        List.singleton_append, List.mem_cons, Obs.answer.injEq] at hm
      rcases hm with ⟨_, rfl⟩ | hm
      · right; left
        unfold App.admission at ha
        split at ha
        · cases ha; exact ⟨_, Or.inl rfl, rfl⟩
        · split at ha
          · cases ha; exact ⟨_, Or.inr (Or.inl rfl), rfl⟩
          · split at ha
            · cases ha; exact ⟨_, Or.inr (Or.inr rfl), rfl⟩
            · cases ha
      · exact Or.inl hm
    | none =>
      rw [ha] at h
      simp only at h
      left
      rcases App.addBlockEntry_cases { s with newQ := s.newQ.eraseIdx i } r' c with ⟨_, he⟩ | ⟨_, _, he⟩ <;>
        (rw [h, he, hf] at hm; simpa using hm)
  | forkHeads heads lib =>
    obtain ⟨_, h⟩ := App.step_forkHeads hst
    rw [App.handleForkHeads_eq] at h
    obtain ⟨rs, hl, _⟩ := (App.evict_spec (App.heights s.lib lib)
      { s with lib := lib, watchdog := s.watchdog.purge lib, tries := s.tries ++ heads.flatMap (App.kids o s) }
      (hinv.idx.of_eq rfl rfl rfl)).2.1.log
    rw [h] at hm
    simp only at hm hl
    rw [hl] at hm
    rcases List.mem_append.1 hm with hm | hm
    · exact Or.inr (Or.inl ⟨_, Or.inr (Or.inr rfl), (mem_answers hm).2⟩)
    · exact Or.inl hm
  | broadcast id height =>
    obtain ⟨_, h⟩ := App.step_broadcast hst
    rw [App.handleBroadcast_eq] at h
    rw [h] at hm; exact Or.inl hm
  | tryBlock i =>
    obtain ⟨_, c, f, ht, h⟩ := App.step_tryBlock hst
    unfold App.handleTry at h
    left
    split at h
    · split at h <;> (rw [h] at hm; exact hm)
    · rw [h] at hm; simpa using hm
  | status i =>
    obtain ⟨_, c, e', ha, h⟩ := App.step_status hst
    rcases App.handleStatus_cases o { s with apps := s.apps.eraseIdx i } c e' with ⟨hb, hs⟩ | ⟨hb, hu, hs⟩ | ⟨hb, hu, hs⟩
    · rw [h, hs] at hm; left; simpa [App.trySend, App.afterStatus] using hm
    · rw [h, hs] at hm; left; simpa [App.afterStatus] using hm
    · rw [h, hs, App.log_remove] at hm
      rcases List.mem_append.1 hm with hm | hm
      · obtain ⟨hr, rfl⟩ := mem_answers hm
        right; right
        cases hg : s.byId.get c.id with
        | none =>
          have : ({ App.afterStatus { s with apps := s.apps.eraseIdx i } c e with
            tries := s.tries ++ App.wakes o { s with apps := s.apps.eraseIdx i } c e } : AState).byId.get c.id = none := hg
          simp only [App.afterStatus] at hr
          rw [hg] at hr; cases hr
        | some x =>
          simp only [App.afterStatus] at hr
          rw [hg] at hr
          exact ⟨i, c, x, rfl, ha, hb, hu, hg, List.mem_reverse.1 hr⟩
      · left; simpa [App.afterStatus] using hm
  | delayDone i => obtain ⟨c, t, t', ha, _, h⟩ := App.step_delayDone hst; rw [h] at hm; exact Or.inl hm
  | delayTimeout i => obtain ⟨c, t, t', ha, _, h⟩ := App.step_delayTimeout hst; rw [h] at hm; left; simpa using hm
  | work i =>
    obtain ⟨c, ha, ⟨_, h⟩ | ⟨_, h⟩⟩ := App.step_work hst
    · rw [h] at hm; exact Or.inl hm
    · rw [h] at hm; left; simpa using hm
  | rpcReturn i e => obtain ⟨c, ha, h⟩ := App.step_rpcReturn hst; rw [h] at hm; left; simpa using hm
  | retryDue i => obtain ⟨t, c, hr, _, h⟩ := App.step_retryDue hst; rw [h] at hm; exact Or.inl hm
  | tick d => rw [App.step_tick hst] at hm; exact Or.inl hm

/-- The end of an application is logged. -/
theorem status_logged {o : AppOpts} {s s' : AState} {i : Nat} {c : Blk} {e : Option Err}
    (hst : App.step o s (.status i) = some s') (ha : s.apps[i]? = some ⟨c, .done e⟩) : Obs.status c e ∈ s'.log := by
  obtain ⟨_, c', e', ha', h⟩ := App.step_status hst
  rw [ha] at ha'; cases ha'
  rcases App.handleStatus_cases o { s with apps := s.apps.eraseIdx i } c e with ⟨hb, hs⟩ | ⟨hb, hu, hs⟩ | ⟨hb, hu, hs⟩
  · rw [h, hs]; exact List.mem_cons_self
  · rw [h, hs]; exact List.mem_cons_self
  · rw [h, hs, App.log_remove]; exact List.mem_append_right _ List.mem_cons_self

/-- A block of `S` stops waiting only when an application of it succeeds. -/
theorem leaves_clean {S : Blk → Prop} {o : AppOpts} {s s' : AState} {l : App.Label} {b : Blk} (hr : App.Reachable o s)
    (hst : App.step o s l = some s') (hb : S b) (hc : Clean S s'.log) (hw : Waiting s b) (hw' : ¬ Waiting s' b) :
    ∃ i, l = .status i ∧ s.apps[i]? = some ⟨b, .done none⟩ := by
  have hinv := App.inv_reachable hr
  have hprov := App.prov_reachable hr
  have hsub := log_grows hinv hst
  rcases leaves hinv hst hw hw' with ⟨i, c, e, rfl, ha, hid, h1, h2⟩ | ⟨heads, lib, rfl, hle⟩
  · have hcb : c = b := hc.one b hb c ((hprov.apps _ (App.mem_of_getElem? ha)).mono hsub) hid
    subst hcb
    rcases hc.willing c e hb (status_logged hst ha) with rfl | h3 | h3
    · exact ⟨i, rfl, ha⟩
    · rw [h2] at h3; cases h3
    · rw [h1] at h3; cases h3
  · exfalso
    obtain ⟨x, hx, hxb⟩ := hw
    obtain ⟨hi, l0, T0, ls, hrun⟩ := hr
    obtain ⟨r, hrx, hcall⟩ := requested_run hrun _ x hx
    obtain ⟨rs, hl, hperm⟩ := C11_answers_exactly ⟨hi, l0, T0, ls, hrun⟩ hst
    rw [hxb] at hcall
    refine hc.admitted b r _ hb (Or.inr (Or.inr rfl)) (hsub _ hcall) ?_
    rw [hl]
    refine List.mem_append_left _ (List.mem_map.2 ⟨r, ?_, rfl⟩)
    refine hperm.mem_iff.2 (List.mem_flatMap.2 ⟨(b.id, x), List.mem_filter.2 ⟨(GoMap.get_eq_some_iff _ _ _).1 hx, ?_⟩, hrx⟩)
    simp only [hxb, decide_eq_true_eq]
    exact hle

/-! ### The blocks of `S` are not lost -/

/-- Something of the block is under way in the applicator. -/
def Under (s : AState) (b : Blk) : Prop :=
  (∃ f, (b, f) ∈ s.tries) ∨ (∃ t, (t, b) ∈ s.retries) ∨ ∃ a ∈ s.apps, a.blk = b

structure Safe (S : Blk → Prop) (s : State) : Prop where
  under : ∀ b, S b → Under s.app b → Waiting s.app b ∨ Has s b.id
  early : ∀ b, S b → TooEarly s.app b → Waiting s.app b
  good : ∀ b, S b → ⟨b, .done none⟩ ∈ s.app.apps → Has s b.id
  ans : ∀ b r e, S b → Obs.call r b ∈ s.app.log → Obs.answer r e ∈ s.app.log → e = none ∧ Has s b.id

theorem safe_init (S : Blk → Prop) (hi lib : UInt64) (now : Int) (known : List (Bytes × UInt64)) :
    Safe S (init hi lib now known) where
  under b _ h := by rcases h with ⟨f, h⟩ | ⟨t, h⟩ | ⟨a, h, _⟩ <;> cases h
  early b _ h := by obtain ⟨a, h, _⟩ := h; cases h
  good b _ h := by cases h
  ans b r e _ h := by cases h

theorem under_step {o : AppOpts} {s s' : AState} {l : App.Label} {b : Blk} (hinv : App.Inv o s) (hprov : App.Prov s)
    (hone : OnlyOne s.log b) (hst : App.step o s l = some s') (hu : Under s' b) : Under s b ∨ Waiting s b ∨ Waiting s' b := by
  have key : (∃ f, (b, f) ∈ s'.tries) → Under s b ∨ Waiting s b ∨ Waiting s' b := by
    intro ht
    rcases App.grants_justified hinv hst ht with h | h | h | h
    · exact Or.inl (Or.inl h)
    · exact Or.inl (Or.inr (Or.inl h))
    · exact Or.inl (Or.inr (Or.inr h))
    · cases h with
      | arrival i r hl hq hh hp =>
        subst hl
        obtain ⟨_, r', c, hq', h⟩ := App.step_newBlock hst
        rw [hq] at hq'; cases hq'
        unfold App.handleNewBlock at h
        cases ha : App.admission o { s with newQ := s.newQ.eraseIdx i } b with
        | some e =>
          rw [ha] at h
          rw [h] at ht
          exact Or.inl (Or.inl ht)
        | none =>
          rw [ha] at h
          simp only at h
          right; right
          have hget := App.get_addTables { s with newQ := s.newQ.eraseIdx i } r b b.id
          have hby : s'.byId = (App.addTables { s with newQ := s.newQ.eraseIdx i } r b).byId := by
            rcases App.addBlockEntry_cases { s with newQ := s.newQ.eraseIdx i } r b with ⟨_, he⟩ | ⟨_, _, he⟩ <;> rw [h, he]
          unfold Waiting
          rw [hby, hget, if_pos rfl]
          cases hg : s.byId.get b.id with
          | none => exact ⟨_, rfl, by simp only⟩
          | some x =>
            refine ⟨_, rfl, ?_⟩
            simp only
            exact hone _ (hprov.entries _ x hg) (hinv.idx.key _ x hg)
      | parentApplied i a hl ha hid hw => exact Or.inr (Or.inl hw)
      | parentBroadcast n hl hw => exact Or.inr (Or.inl hw)
      | parentHead heads L hl hp hw => exact Or.inr (Or.inl hw)
  obtain ⟨f1, f2⟩ := App.flow_step hinv hst
  rcases hu with h | ⟨t, h⟩ | ⟨a, h, rfl⟩
  · exact key h
  · rcases f1 _ h with h | h
    · exact Or.inl (Or.inr (Or.inl ⟨t, h⟩))
    · exact Or.inl (Or.inl h)
  · rcases f2 _ h with h | h
    · exact Or.inl (Or.inr (Or.inr h))
    · exact Or.inl (Or.inl h)

theorem safe_app {S : Blk → Prop} {o : AppOpts} {s s' : State} {l : App.Label} (hr : App.Reachable o s.app)
    (h : Safe S s) (ht : Truthful S s) (hc : Clean S s'.app.log) (hst : App.step o s.app l = some s'.app)
    (hacc : s'.accepted = s.accepted)
    (hhon : ∀ i e x, l = .rpcReturn i e → s.app.apps[i]? = some x → honest s x.blk e = true) : Safe S s' := by
  have hinv := App.inv_reachable hr
  have hprov := App.prov_reachable hr
  have hsub := log_grows hinv hst
  have hc0 := hc.back hsub
  have hHas : ∀ id, Has s' id ↔ Has s id := fun id => by unfold Has; rw [hacc]
  have stays : ∀ b, S b → Waiting s.app b → Waiting s'.app b ∨ Has s' b.id := by
    intro b hb hw
    by_cases hw' : Waiting s'.app b
    · exact Or.inl hw'
    · obtain ⟨i, _, ha⟩ := leaves_clean hr hst hb hc hw hw'
      exact Or.inr ((hHas _).2 (h.good b hb (App.mem_of_getElem? ha)))
  refine ⟨fun b hb hu => ?_, fun b hb he => ?_, fun b hb hm => ?_, fun b r e hb hcall hans => ?_⟩
  · rcases under_step hinv hprov (hc0.one b hb) hst hu with hu | hw | hw
    · rcases h.under b hb hu with hw | hh
      · exact stays b hb hw
      · exact Or.inr ((hHas _).2 hh)
    · exact stays b hb hw
    · exact Or.inl hw
  · -- an application that came too early
    obtain ⟨a, ha, hid, e, hse, hun⟩ := he
    have hk : Known s'.app.log a.blk :=
      (App.prov_step o _ _ _ hinv hprov hst).apps a ha
    have hab : a.blk = b := hc.one b hb _ hk hid
    have hw : Waiting s.app b := by
      rcases ended hinv hst ha hse with h1 | ⟨i, rfl, hi⟩ | ⟨rfl, _⟩ | ⟨rfl, _⟩
      · exact h.early b hb ⟨a, h1, hid, e, hse, hun⟩
      · have hno : ¬ Has s b.previous := by
          have := hhon i e _ rfl hi
          unfold honest at this
          simp only [hun, hab, Bool.and_eq_true, Bool.or_eq_true, Bool.not_eq_true', decide_eq_false_iff_not] at this
          rcases this.2 with h3 | h3
          · cases h3
          · exact h3
        rcases h.under b hb (Or.inr (Or.inr ⟨_, App.mem_of_getElem? hi, hab⟩)) with hw | ⟨n, hn⟩
        · exact hw
        · exact absurd (ht b hb n hn).2 hno
      · cases hun
      · cases hun
    by_contra hw'
    obtain ⟨i, rfl, hi⟩ := leaves_clean hr hst hb hc hw hw'
    -- the application that succeeded was the only one
    obtain ⟨_, c, e', hi', hs⟩ := App.step_status hst
    rw [hi] at hi'; cases hi'
    have : a ∈ s.app.apps.eraseIdx i := by
      rcases App.handleStatus_cases o { s.app with apps := s.app.apps.eraseIdx i } b none with ⟨hb', hs'⟩ | ⟨hb', hu, hs'⟩ | ⟨hb', hu, hs'⟩
      · cases hb'
      · cases hu
      · rw [hs, hs', (App.onlyRemoved_remove _ _ _).apps] at ha; exact ha
    exact app_unique hinv hi this hid
  · rw [hHas]
    rcases ended (e := none) hinv hst hm rfl with h1 | ⟨i, rfl, hi⟩ | ⟨h1, _⟩ | ⟨_, h1⟩
    · exact h.good b hb h1
    · have := hhon i none _ rfl hi
      unfold honest at this
      simp at this
      exact this.1
    · cases h1
    · exact absurd h1 (hc.patient b hb)
  · rw [hHas]
    have hcall0 : Obs.answer r e ∈ s.app.log → Obs.call r b ∈ s.app.log := by
      intro hm
      obtain ⟨b', hb', _⟩ := hprov.good _ hm
      have := (App.prov_step o _ _ _ hinv hprov hst).callInj r b b' hcall (hsub _ hb')
      rw [this]; exact hb'
    rcases answers hinv hst hans with h1 | ⟨x, hx, rfl⟩ | ⟨i, c, x, rfl, ha, h1, h2, hg, hrx⟩
    · exact h.ans b r e hb (hcall0 h1) h1
    · exact absurd hans (hc.admitted b r x hb hx hcall)
    · obtain ⟨b', hb', hid⟩ := hprov.chans _ x r hg hrx
      have hbb := (App.prov_step o _ _ _ hinv hprov hst).callInj r b b' hcall (hsub _ hb')
      have hcb : c = b := hc.one b hb c ((hprov.apps _ (App.mem_of_getElem? ha)).mono hsub) (by rw [hbb]; exact hid.symm)
      subst hcb
      rcases hc.willing c e hb (status_logged hst ha) with rfl | h3 | h3
      · exact ⟨rfl, h.good c hb (App.mem_of_getElem? ha)⟩
      · rw [h2] at h3; cases h3
      · rw [h1] at h3; cases h3

theorem safe_step {S : Blk → Prop} {o : AppOpts} {s s' : State} {l : Label} (hr : App.Reachable o s.app)
    (h : Safe S s) (ht : Truthful S s) (hc : Clean S s'.app.log) (hst : step o s l = some s') : Safe S s' := by
  cases l with
  | accept id prev n =>
    obtain ⟨_, _, rfl⟩ := step_accept hst
    have up : ∀ {id'}, Has s id' → Has { s with accepted := (id, n) :: s.accepted, news := s.news ++ [(id, n)] } id' :=
      fun ⟨m, hm⟩ => ⟨m, List.mem_cons_of_mem _ hm⟩
    exact ⟨fun b hb hu => (h.under b hb hu).imp_right up, h.early, fun b hb hm => up (h.good b hb hm),
      fun b r e hb h1 h2 => ⟨(h.ans b r e hb h1 h2).1, up (h.ans b r e hb h1 h2).2⟩⟩
  | deliver i =>
    obtain ⟨id, n, a, hn, ha, rfl⟩ := step_deliver hst
    exact safe_app hr h ht hc ha rfl (by rintro _ _ _ ⟨⟩)
  | act l =>
    obtain ⟨a, ha, rfl, hnb, hhon⟩ := step_act hst
    exact safe_app hr h ht hc ha rfl hhon

/-! ### And they are brought to the chain again -/

/-- What is under way stays under way until an application of the block has ended. -/
theorem under_stays {o : AppOpts} {s s' : AState} {l : App.Label} {p : Blk} (hinv : App.Inv o s) (hprov : App.Prov s)
    (hone : OnlyOne s.log p) (hst : App.step o s l = some s') (hu : Under s p) :
    Under s' p ∨ ∃ i e, l = .status i ∧ s.apps[i]? = some ⟨p, .done e⟩ ∧ errIs e .blockState = false := by
  have mono : (∀ x ∈ s.tries, x ∈ s'.tries) → (∀ x ∈ s.retries, x ∈ s'.retries) →
      (∀ a ∈ s.apps, ∃ a' ∈ s'.apps, a'.blk = a.blk) → Under s' p := by
    intro h1 h2 h3
    rcases hu with ⟨f, h⟩ | ⟨t, h⟩ | ⟨a, h, rfl⟩
    · exact Or.inl ⟨f, h1 _ h⟩
    · exact Or.inr (Or.inl ⟨t, h2 _ h⟩)
    · obtain ⟨a', h', he⟩ := h3 a h
      exact Or.inr (Or.inr ⟨a', h', he⟩)
  have same : ∀ t : AState, s' = t → t.tries = s.tries → t.retries = s.retries → t.apps = s.apps → Under s' p := by
    rintro t rfl h1 h2 h3
    exact mono (by rw [h1]; exact fun _ h => h) (by rw [h2]; exact fun _ h => h) (by rw [h3]; exact fun a h => ⟨a, h, rfl⟩)
  have setA : ∀ (t : AState) (i : Nat) (c : Blk) (st st' : Stage), s' = t → t.tries = s.tries → t.retries = s.retries →
      s.apps[i]? = some ⟨c, st⟩ → t.apps = s.apps.set i ⟨c, st'⟩ → Under s' p := by
    rintro t i c st st' rfl h1 h2 h3 h4
    refine mono (by rw [h1]; exact fun _ h => h) (by rw [h2]; exact fun _ h => h) fun a ha => ?_
    rw [h4]
    rcases mem_set_or (y := ⟨c, st'⟩) h3 ha with hm | rfl
    · exact ⟨a, hm, rfl⟩
    · exact ⟨⟨c, st'⟩, mem_set_self h3, rfl⟩
  cases l with
  | applyBlock c => rcases App.step_applyBlock hst with ⟨e, _, h⟩ | ⟨_, h⟩ <;> exact Or.inl (same _ h rfl rfl rfl)
  | callerReturns r => obtain ⟨_, e, _, h⟩ := App.step_callerReturns hst; exact Or.inl (same _ h rfl rfl rfl)
  | callerTimesOut r => obtain ⟨_, h⟩ := App.step_callerTimesOut hst; exact Or.inl (same _ h rfl rfl rfl)
  | newBlock i =>
    obtain ⟨_, r, c, hq, h⟩ := App.step_newBlock hst
    unfold App.handleNewBlock at h
    obtain ⟨m, p', q, hf⟩ := App.addTables_frame { s with newQ := s.newQ.eraseIdx i } r c
    cases ha : App.admission o { s with newQ := s.newQ.eraseIdx i } c with
    | some e => rw [ha] at h; exact Or.inl (same _ h rfl rfl rfl)
    | none =>
      rw [ha] at h
      simp only at h
      left
      rcases App.addBlockEntry_cases { s with newQ := s.newQ.eraseIdx i } r c with ⟨_, he⟩ | ⟨_, _, he⟩
      · refine same _ h ?_ ?_ ?_ <;> rw [he, hf]
      · refine mono (fun x hx => ?_) (fun x hx => ?_) (fun a ha => ⟨a, ?_, rfl⟩)
        · rw [h, he, hf]; exact List.mem_append_left _ hx
        · rw [h, he, hf]; exact hx
        · rw [h, he, hf]; exact ha
  | forkHeads heads lib =>
    obtain ⟨_, h⟩ := App.step_forkHeads hst
    rw [App.handleForkHeads_eq] at h
    obtain ⟨_, h2, _⟩ := App.evict_spec (App.heights s.lib lib)
      { s with lib := lib, watchdog := s.watchdog.purge lib, tries := s.tries ++ heads.flatMap (App.kids o s) }
      (hinv.idx.of_eq rfl rfl rfl)
    have e1 := h2.tries
    have e2 := h2.retries
    have e3 := h2.apps
    left
    refine mono (fun x hx => ?_) (fun x hx => ?_) (fun a ha => ⟨a, ?_, rfl⟩)
    · rw [h]; simp only at e1 ⊢; rw [e1]; exact List.mem_append_left _ hx
    · rw [h]; simp only at e2 ⊢; rw [e2]; exact hx
    · rw [h]; simp only at e3 ⊢; rw [e3]; exact ha
  | broadcast id height =>
    obtain ⟨_, h⟩ := App.step_broadcast hst
    rw [App.handleBroadcast_eq] at h
    left
    refine mono (fun x hx => ?_) (fun x hx => ?_) (fun a ha => ⟨a, ?_, rfl⟩)
    · rw [h]; exact List.mem_append_left _ hx
    · rw [h]; exact hx
    · rw [h]; exact ha
  | tryBlock i =>
    obtain ⟨_, c, f, ht, h⟩ := App.step_tryBlock hst
    unfold App.handleTry at h
    left
    by_cases hcp : c = p
    · subst hcp
      split at h
      · rename_i hp
        obtain ⟨a, ha, hid⟩ := List.mem_map.1 ((hinv.pend c.id).1 hp)
        have hapE : s'.apps = s.apps := by rw [h]; split <;> rfl
        exact Or.inr (Or.inr ⟨a, by rw [hapE]; exact ha, hone _ (hprov.apps a ha) hid⟩)
      · refine Or.inr (Or.inr ⟨App.beginApp o s.now c, ?_, ?_⟩)
        · rw [h]; exact List.mem_append_right _ (List.mem_singleton.2 rfl)
        · unfold App.beginApp; dsimp only; split <;> rfl
    · have keep : ∀ g, (p, g) ∈ s.tries → (p, g) ∈ s.tries.eraseIdx i :=
        fun g hg => App.mem_eraseIdx_of_ne ht hg (by rintro ⟨⟩; exact hcp rfl)
      split at h
      · rcases hu with ⟨g, k⟩ | ⟨t, k⟩ | ⟨a, k, k1⟩
        · refine Or.inl ⟨g, ?_⟩
          rw [h]; split <;> exact keep g k
        · refine Or.inr (Or.inl ⟨t, ?_⟩)
          rw [h]; split
          · exact List.mem_append_left _ k
          · exact k
        · refine Or.inr (Or.inr ⟨a, ?_, k1⟩)
          rw [h]; split <;> exact k
      · rcases hu with ⟨g, k⟩ | ⟨t, k⟩ | ⟨a, k, k1⟩
        · exact Or.inl ⟨g, by rw [h]; exact keep g k⟩
        · exact Or.inr (Or.inl ⟨t, by rw [h]; exact k⟩)
        · exact Or.inr (Or.inr ⟨a, by rw [h]; exact List.mem_append_left _ k, k1⟩)
  | status i =>
    obtain ⟨_, c, e, ha, h⟩ := App.step_status hst
    have hsame : ∀ t : AState, s' = t → (∀ x ∈ s.tries, x ∈ t.tries) → t.retries = s.retries → t.apps = s.apps.eraseIdx i →
        c ≠ p → Under s' p := by
      rintro t rfl h1 h2 h3 hne
      rcases hu with ⟨g, k⟩ | ⟨t, k⟩ | ⟨a, k, k1⟩
      · exact Or.inl ⟨g, h1 _ k⟩
      · exact Or.inr (Or.inl ⟨t, by rw [h2]; exact k⟩)
      · refine Or.inr (Or.inr ⟨a, ?_, k1⟩)
        rw [h3]
        refine App.mem_eraseIdx_of_ne ha k ?_
        rintro rfl
        exact hne k1
    rcases App.handleStatus_cases o { s with apps := s.apps.eraseIdx i } c e with ⟨hb, hs⟩ | ⟨hb, hu', hs⟩ | ⟨hb, hu', hs⟩
    · rw [hs] at h
      left
      by_cases hcp : c = p
      · refine Or.inl ⟨false, ?_⟩
        rw [h, hcp]; exact List.mem_append_right _ (List.mem_singleton.2 rfl)
      · exact hsame _ h (fun x hx => List.mem_append_left _ hx) rfl rfl hcp
    · rw [hs] at h
      by_cases hcp : c = p
      · right; subst hcp; exact ⟨i, e, rfl, ha, hb⟩
      · exact Or.inl (hsame _ h (fun x hx => hx) rfl rfl hcp)
    · rw [hs] at h
      have hr := App.onlyRemoved_remove { App.afterStatus { s with apps := s.apps.eraseIdx i } c e with
        tries := s.tries ++ App.wakes o { s with apps := s.apps.eraseIdx i } c e } c.id e
      by_cases hcp : c = p
      · right; subst hcp; exact ⟨i, e, rfl, ha, hb⟩
      · exact Or.inl (hsame _ h (fun x hx => by rw [hr.tries]; exact List.mem_append_left _ hx) hr.retries hr.apps hcp)
  | delayDone i =>
    obtain ⟨c, t, t', ha, _, h⟩ := App.step_delayDone hst
    exact Or.inl (setA _ i c _ .queued h rfl rfl ha rfl)
  | delayTimeout i =>
    obtain ⟨c, t, t', ha, _, h⟩ := App.step_delayTimeout hst
    exact Or.inl (setA _ i c _ (.done none) h rfl rfl ha rfl)
  | work i =>
    obtain ⟨c, ha, ⟨_, h⟩ | ⟨_, h⟩⟩ := App.step_work hst
    · exact Or.inl (setA _ i c _ _ h rfl rfl ha rfl)
    · exact Or.inl (setA _ i c _ .inRPC h rfl rfl ha rfl)
  | rpcReturn i e =>
    obtain ⟨c, ha, h⟩ := App.step_rpcReturn hst
    exact Or.inl (setA _ i c _ (.done e) h rfl rfl ha rfl)
  | retryDue i =>
    obtain ⟨t, c, hr, _, h⟩ := App.step_retryDue hst
    left
    rcases hu with ⟨g, k⟩ | ⟨t', k⟩ | ⟨a, k, k1⟩
    · exact Or.inl ⟨g, by rw [h]; exact List.mem_append_left _ k⟩
    · by_cases hx : (t', p) = (t, c)
      · cases hx
        exact Or.inl ⟨true, by rw [h]; exact List.mem_append_right _ (List.mem_singleton.2 rfl)⟩
      · exact Or.inr (Or.inl ⟨t', by rw [h]; exact App.mem_eraseIdx_of_ne hr k hx⟩)
    · exact Or.inr (Or.inr ⟨a, by rw [h]; exact k, k1⟩)
  | tick d => exact Or.inl (same _ (App.step_tick hst) rfl rfl rfl)

/-- A block of `S` that waits or is under way goes on doing so until an application of it succeeds. -/
theorem alive_stays {S : Blk → Prop} {o : AppOpts} {s s' : State} {l : App.Label} {p : Blk} (hr : App.Reachable o s.app)
    (h : Safe S s) (hc : Clean S s'.app.log) (hst : App.step o s.app l = some s'.app) (hp : S p)
    (ha : Waiting s.app p ∨ Under s.app p) :
    (Waiting s'.app p ∨ Under s'.app p) ∨ ∃ i, l = .status i ∧ s.app.apps[i]? = some ⟨p, .done none⟩ := by
  have hinv := App.inv_reachable hr
  have hprov := App.prov_reachable hr
  have hc0 := hc.back (log_grows hinv hst)
  have wait : Waiting s.app p →
      (Waiting s'.app p ∨ Under s'.app p) ∨ ∃ i, l = .status i ∧ s.app.apps[i]? = some ⟨p, .done none⟩ := by
    intro hw
    by_cases hw' : Waiting s'.app p
    · exact Or.inl (Or.inl hw')
    · exact Or.inr (leaves_clean hr hst hp hc hw hw')
  rcases ha with hw | hu
  · exact wait hw
  · rcases under_stays hinv hprov (hc0.one p hp) hst hu with hu | ⟨i, e, rfl, hi, hb⟩
    · exact Or.inl (Or.inr hu)
    · rcases hc.willing p e hp (status_logged hst hi) with rfl | h3 | h3
      · exact Or.inr ⟨i, rfl, hi⟩
      · exact wait (h.early p hp ⟨_, App.mem_of_getElem? hi, rfl, e, rfl, h3⟩)
      · rw [hb] at h3; cases h3

/-- The promise for the blocks of `S`: help is under way, or the parent itself waits or is under way. -/
def KeptS (S : Blk → Prop) (s : State) : Prop := s.app.highest.toNat + 1 < 2 ^ 64 → ∀ b, S b → Waiting s.app b →
  ∀ h, (b.previous, h) ∈ s.accepted → b.height.toNat ≤ h.toNat + 1 → Helped (Coming s b) s.app b ∨
    ∃ p, S p ∧ p.id = b.previous ∧ p.height.toNat + 1 = b.height.toNat ∧ (Waiting s.app p ∨ Under s.app p)

theorem keptS_step {S : Blk → Prop} {o : AppOpts} {s s' : State} {l : Label} (ho : GoodOpts o) (hr : App.Reachable o s.app)
    (hi : LInv o s) (hsafe : Safe S s) (hk : KeptS S s) (hfit : Fit S o s l) (hc : Clean S s'.app.log)
    (hst : step o s l = some s') : KeptS S s' := by
  intro hov b hb hw n hacc hbn
  cases l with
  | accept id prev m =>
    obtain ⟨_, _, rfl⟩ := step_accept hst
    rcases List.mem_cons.1 hacc with he | hacc
    · cases he
      exact Or.inl (Or.inl ⟨n, List.mem_append_right _ (List.mem_singleton.2 rfl)⟩)
    · rcases hk hov b hb hw n hacc hbn with (⟨m', h1⟩ | h1) | h1
      · exact Or.inl (Or.inl ⟨m', List.mem_append_left _ h1⟩)
      · exact Or.inl (Or.inr h1)
      · exact Or.inr h1
  | deliver i =>
    obtain ⟨id, m, a, hn, ha, rfl⟩ := step_deliver hst
    have hm := UInt64.le_iff_toNat_le.1 (highest_mono hi.inv ha)
    have halive := fun p hp h => alive_stays (S := S) (s' := { s with app := a, news := s.news.eraseIdx i }) (p := p) hr hsafe hc ha hp h
    obtain ⟨_, rfl⟩ := App.step_broadcast ha
    have hEq := App.handleBroadcast_eq o s.app id m
    have hw0 : Waiting s.app b := by simp only [hEq] at hw; exact hw
    simp only [hEq] at hov hm halive ⊢
    by_cases hp : b.previous = id
    · left
      by_cases hte : TooEarly s.app b
      · refine Or.inr (Or.inl (Or.inl (List.mem_append_right _ ?_)))
        have hrec := hfit.2 b hb hw0 (Or.inl ⟨i, m, rfl, by rw [hp]; exact hn⟩) hte
        exact (App.mem_kids hi.inv.idx id (b, true)).2 ⟨hw0, hp, (force_of_recent hrec.1 ho hrec.2).symm⟩
      · exact Or.inr (Or.inr (Or.inr (Or.inl ⟨⟨_, List.mem_append_right _
          ((App.mem_kids hi.inv.idx id (b, App.forceFor o s.app.now b)).2 ⟨hw0, hp, rfl⟩)⟩, not_stuck hte⟩)))
    · rcases hk (by omega) b hb hw0 n hacc hbn with (⟨m', h1⟩ | h1) | ⟨p, hSp, hpid, hph, hal⟩
      · exact Or.inl (Or.inl ⟨m', App.mem_eraseIdx_of_ne hn h1 (by rintro ⟨⟩; exact hp rfl)⟩)
      · exact Or.inl (Helped.mono (Or.inr h1) (fun _ hx => List.mem_append_left _ hx) (fun _ hx => hx) rfl)
      · rcases halive p hSp hal with h1 | ⟨_, h1, _⟩
        · exact Or.inr ⟨p, hSp, hpid, hph, h1⟩
        · cases h1
  | act l =>
    obtain ⟨a, ha, rfl, hnb, hhon⟩ := step_act hst
    have hm := UInt64.le_iff_toNat_le.1 (highest_mono hi.inv ha)
    simp only at hov hw hc
    have hov0 : s.app.highest.toNat + 1 < 2 ^ 64 := by omega
    have hsub := log_grows hi.inv ha
    have hc0 := hc.back hsub
    have hHas : Has s b.previous := ⟨n, hacc⟩
    -- the parent's application ends with an error while the block waits
    by_cases hsp : Waiting s.app b ∧ ∃ i p e, l = .status i ∧ s.app.apps[i]? = some ⟨p, .done (some e)⟩ ∧ p.id = b.previous
    · obtain ⟨hw0, i, p, e, rfl, hpi, hpid⟩ := hsp
      have hlog := status_logged ha hpi
      rcases hc.parents b hb with ⟨p', hSp, hp'id, hph⟩ | hroot
      · have hpp : p = p' := hc.one p' hSp p ((hi.prov.apps _ (App.mem_of_getElem? hpi)).mono hsub) (by rw [hpid, hp'id])
        subst hpp
        rcases alive_stays (s' := { s with app := a }) hr hsafe hc ha hSp
          (Or.inr (Or.inr (Or.inr ⟨_, App.mem_of_getElem? hpi, rfl⟩))) with h1 | ⟨j, hj, hpj⟩
        · exact Or.inr ⟨p, hSp, hpid, hph, h1⟩
        · cases hj
          rw [hpi] at hpj; cases hpj
      · cases hroot p _ hpid hlog
    · have act : ∀ N : Prop, (N ∨ b.height.toNat ≤ s.app.highest.toNat + 1) → (Waiting s.app b → Helped N s.app b) →
          Helped N a b := by
        intro N hN ih
        refine helped_act (N := N) hi.inv hi.prov ha hnb (hc0.one b hb) hw ?_ ?_ ?_ ?_ hN hov0 ih
        · intro i e x he hx hxb
          have := hhon i e x he hx
          unfold honest at this
          rw [hxb] at this
          simp only [Bool.and_eq_true, Bool.or_eq_true, Bool.not_eq_true', decide_eq_false_iff_not] at this
          rcases this.2 with h1 | h1
          · exact h1
          · exact absurd hHas h1
        · intro hw0 i p e he hx hp
          exact hsp ⟨hw0, i, p, e, he, hx, hp⟩
        · intro i r he hx hnw hte
          exact hnw (hsafe.early b hb hte)
        · intro hw0 hte i p he hx hp
          have hrec := hfit.2 b hb hw0 (Or.inr ⟨i, p, by rw [he], hx, hp⟩) hte
          exact force_of_recent hrec.1 ho hrec.2
      have hN : Coming s b ∨ b.height.toNat ≤ s.app.highest.toNat + 1 := by
        rcases hi.heights _ hacc with h1 | h1
        · exact Or.inl ⟨n, h1⟩
        · right
          have := UInt64.le_iff_toNat_le.1 h1
          simp only at this
          omega
      by_cases hw0 : Waiting s.app b
      swap
      · exact Or.inl (act (Coming s b) hN fun h => absurd h hw0)
      rcases hk hov0 b hb hw0 n hacc hbn with h1 | ⟨p, hSp, hpid, hph, hal⟩
      · exact Or.inl (act (Coming s b) hN fun _ => h1)
      · rcases alive_stays (s' := { s with app := a }) hr hsafe hc ha hSp hal with h1 | ⟨i, rfl, hpi⟩
        · exact Or.inr ⟨p, hSp, hpid, hph, h1⟩
        · exact Or.inl (act (Coming s b) hN fun _ =>
            Or.inr (Or.inr (Or.inr (Or.inr ⟨_, App.mem_of_getElem? hpi, hpid⟩))))

theorem reach_safe {S : Blk → Prop} {o : AppOpts} {s : State} (ho : GoodOpts o) (h : Reach o (Fit S o) s)
    (hc : Clean S s.app.log) : Safe S s ∧ KeptS S s := by
  induction h with
  | init hi lib now known hk =>
    refine ⟨safe_init S hi lib now known, ?_⟩
    rintro _ b _ ⟨x, hx, _⟩
    simp [init, App.init] at hx
  | @step s s' l hr hfit hst ih =>
    have hsub : ∀ x ∈ s.app.log, x ∈ s'.app.log := by
      cases l with
      | accept id prev n => obtain ⟨_, _, rfl⟩ := step_accept hst; exact fun _ h => h
      | deliver i => obtain ⟨id, n, a, hn, ha, rfl⟩ := step_deliver hst; exact log_grows (reach_inv hr).inv ha
      | act l => obtain ⟨a, ha, rfl, _⟩ := step_act hst; exact log_grows (reach_inv hr).inv ha
    obtain ⟨h1, h2⟩ := ih (hc.back hsub)
    exact ⟨safe_step (reach_app hr) h1 hfit.1 hc hst, keptS_step ho (reach_app hr) (reach_inv hr) h1 h2 hfit hc hst⟩

end Link
end KP2P

import Verif.Model.SubmitWindow
import Verif.Proof.Applicator
/-!
# Proofs about the window between comparison and submission
-/

namespace KP2P
namespace Window

theorem run_append (o : AppOpts) (s : State) (a b : List Label) :
    run o s (a ++ b) = (run o s a).bind fun s' => run o s' b := by
  induction a generalizing s with
  | nil => rfl
  | cons l a ih =>
    simp only [List.cons_append, run]
    cases step o s l with
    | none => rfl
    | some s' => exact ih s'

theorem run_snoc {o s ls l s'} (h : run o s (ls ++ [l]) = some s') :
    ∃ s1, run o s ls = some s1 ∧ step o s1 l = some s' := by
  rw [run_append] at h
  cases h1 : run o s ls with
  | none => rw [h1] at h; cases h
  | some s1 =>
    rw [h1] at h
    simp only [Option.bind_some, run] at h
    cases h2 : step o s1 l with
    | none => rw [h2] at h; cases h
    | some s2 => rw [h2] at h; simp only [Option.some.injEq] at h; subst h; exact ⟨s1, rfl, h2⟩

theorem step_app {o : AppOpts} {s s' : State} {l : App.Label} (h : step o s (.app l) = some s') :
    early s l = false ∧ ∃ a, App.step o s.app l = some a ∧
      s' = { s with app := a, ready := passed s.app l ++ s.ready } := by
  simp only [step] at h
  split at h
  · cases h
  · rename_i he
    cases ha : App.step o s.app l with
    | none => rw [ha] at h; cases h
    | some a => rw [ha] at h; exact ⟨by simpa using he, a, rfl, (Option.some.inj h).symm⟩

theorem step_send {o : AppOpts} {s s' : State} {b : Blk} (h : step o s (.send b) = some s') :
    b ∈ s.ready ∧ s' = { s with ready := s.ready.erase b, sent := (b, s.app.lib) :: s.sent } := by
  simp only [step] at h
  split at h
  · rename_i hb; exact ⟨hb, (Option.some.inj h).symm⟩
  · cases h

/-- What a step of the applicator does to the irreversible height and to the calls of the chain. -/
theorem frame {o : AppOpts} {s s' : AState} {l : App.Label} (hinv : App.Inv o s) (hst : App.step o s l = some s') :
    (s'.lib = s.lib ∨ ∃ heads, l = .forkHeads heads s'.lib) ∧
      ∀ b, ⟨b, .inRPC⟩ ∈ s.apps → ⟨b, .inRPC⟩ ∈ s'.apps ∨ ∃ i e, l = .rpcReturn i e ∧ s.apps[i]? = some ⟨b, .inRPC⟩ := by
  have setA : ∀ (i : Nat) (c b : Blk) (st st' : Stage), s.apps[i]? = some ⟨c, st⟩ → s'.apps = s.apps.set i ⟨c, st'⟩ →
      ⟨b, .inRPC⟩ ∈ s.apps → ⟨b, .inRPC⟩ ∈ s'.apps ∨ (st = .inRPC ∧ c = b) := by
    intro i c b st st' hi h hm
    obtain ⟨j, hj⟩ := List.getElem?_of_mem hm
    by_cases hij : i = j
    · subst hij
      rw [hi] at hj
      cases hj; exact Or.inr ⟨rfl, rfl⟩
    · left
      rw [h]
      refine List.mem_of_getElem? (i := j) ?_
      rw [List.getElem?_set_ne hij]; exact hj
  cases l with
  | applyBlock c =>
    rcases App.step_applyBlock hst with ⟨e, _, h⟩ | ⟨_, h⟩ <;> subst h <;> exact ⟨Or.inl rfl, fun b hb => Or.inl hb⟩
  | callerReturns r =>
    obtain ⟨_, e, _, h⟩ := App.step_callerReturns hst; subst h; exact ⟨Or.inl rfl, fun b hb => Or.inl hb⟩
  | callerTimesOut r =>
    obtain ⟨_, h⟩ := App.step_callerTimesOut hst; subst h; exact ⟨Or.inl rfl, fun b hb => Or.inl hb⟩
  | newBlock i =>
    obtain ⟨_, r, c, hq, h⟩ := App.step_newBlock hst
    unfold App.handleNewBlock at h
    obtain ⟨m, p, q, hf⟩ := App.addTables_frame { s with newQ := s.newQ.eraseIdx i } r c
    cases ha : App.admission o { s with newQ := s.newQ.eraseIdx i } c with
    | some e => rw [ha] at h; subst h; exact ⟨Or.inl rfl, fun b hb => Or.inl hb⟩
    | none =>
      rw [ha] at h
      simp only at h
      rcases App.addBlockEntry_cases { s with newQ := s.newQ.eraseIdx i } r c with ⟨_, he⟩ | ⟨_, _, he⟩ <;>
        (rw [he, hf] at h; subst h; exact ⟨Or.inl rfl, fun b hb => Or.inl hb⟩)
  | forkHeads heads lib =>
    obtain ⟨_, h⟩ := App.step_forkHeads hst
    rw [App.handleForkHeads_eq] at h
    have h2 := (App.evict_spec (App.heights s.lib lib)
      { s with lib := lib, watchdog := s.watchdog.purge lib, tries := s.tries ++ heads.flatMap (App.kids o s) }
      (hinv.idx.of_eq rfl rfl rfl)).2.1
    have h3 := h2.apps
    have h4 := h2.lib
    simp only at h3 h4
    subst h
    refine ⟨Or.inr ⟨heads, ?_⟩, fun b hb => Or.inl ?_⟩
    · simp only [h4]
    · simp only [h3]; exact hb
  | broadcast id height =>
    obtain ⟨_, h⟩ := App.step_broadcast hst
    rw [App.handleBroadcast_eq] at h
    subst h; exact ⟨Or.inl rfl, fun b hb => Or.inl hb⟩
  | tryBlock i =>
    obtain ⟨_, c, f, ht, h⟩ := App.step_tryBlock hst
    unfold App.handleTry at h
    split at h
    · split at h <;> subst h <;> exact ⟨Or.inl rfl, fun b hb => Or.inl hb⟩
    · subst h; exact ⟨Or.inl rfl, fun b hb => Or.inl (List.mem_append_left _ hb)⟩
  | status i =>
    obtain ⟨_, c, e', ha, h⟩ := App.step_status hst
    have key : ∀ b, (⟨b, .inRPC⟩ : BApp) ∈ s.apps → ⟨b, .inRPC⟩ ∈ s.apps.eraseIdx i := by
      intro b hb
      obtain ⟨j, hj⟩ := List.getElem?_of_mem hb
      have hij : j ≠ i := by rintro rfl; rw [ha] at hj; cases hj
      rw [List.mem_eraseIdx_iff_getElem?]
      exact ⟨j, hij, hj⟩
    rcases App.handleStatus_cases o { s with apps := s.apps.eraseIdx i } c e' with ⟨hb, hs⟩ | ⟨hb, hu, hs⟩ | ⟨hb, hu, hs⟩
    · rw [h, hs]; exact ⟨Or.inl rfl, fun b hb => Or.inl (key b hb)⟩
    · rw [h, hs]; exact ⟨Or.inl rfl, fun b hb => Or.inl (key b hb)⟩
    · rw [h, hs]
      rw [(App.onlyRemoved_remove _ _ _).apps, (App.onlyRemoved_remove _ _ _).lib]
      exact ⟨Or.inl rfl, fun b hb => Or.inl (key b hb)⟩
  | delayDone i =>
    obtain ⟨c, t, t', ha, _, h⟩ := App.step_delayDone hst
    refine ⟨Or.inl (by rw [h]), fun b hb => ?_⟩
    rcases setA i c b _ .queued ha (by rw [h]) hb with h1 | ⟨h1, _⟩
    · exact Or.inl h1
    · cases h1
  | delayTimeout i =>
    obtain ⟨c, t, t', ha, _, h⟩ := App.step_delayTimeout hst
    refine ⟨Or.inl (by rw [h]), fun b hb => ?_⟩
    rcases setA i c b _ (.done none) ha (by rw [h]) hb with h1 | ⟨h1, _⟩
    · exact Or.inl h1
    · cases h1
  | work i =>
    obtain ⟨c, ha, ⟨_, h⟩ | ⟨_, h⟩⟩ := App.step_work hst
    · refine ⟨Or.inl (by rw [h]), fun b hb => ?_⟩
      rcases setA i c b _ _ ha (by rw [h]) hb with h1 | ⟨h1, _⟩
      · exact Or.inl h1
      · cases h1
    · refine ⟨Or.inl (by rw [h]), fun b hb => ?_⟩
      rcases setA i c b _ _ ha (by rw [h]) hb with h1 | ⟨h1, _⟩
      · exact Or.inl h1
      · cases h1
  | rpcReturn i e' =>
    obtain ⟨c, ha, h⟩ := App.step_rpcReturn hst
    refine ⟨Or.inl (by rw [h]), fun b hb => ?_⟩
    rcases setA i c b _ _ ha (by rw [h]) hb with h1 | ⟨_, rfl⟩
    · exact Or.inl h1
    · exact Or.inr ⟨i, e', rfl, ha⟩
  | retryDue i =>
    obtain ⟨t, c, hr, _, h⟩ := App.step_retryDue hst; subst h; exact ⟨Or.inl rfl, fun b hb => Or.inl hb⟩
  | tick d => rw [App.step_tick hst]; exact ⟨Or.inl rfl, fun b hb => Or.inl hb⟩

/-- What is between comparison and call. -/
structure WInv (o : AppOpts) (s : State) : Prop where
  app : App.Inv o s.app
  nodup : s.ready.Nodup
  rpc : ∀ b ∈ s.ready, ⟨b, .inRPC⟩ ∈ s.app.apps

theorem winv_init (o : AppOpts) (hi lib : UInt64) (now : Int) : WInv o (init hi lib now) :=
  ⟨App.inv_init o hi lib now, List.nodup_nil, fun _ hb => nomatch hb⟩

/-- The block that passes, and its application. -/
theorem mem_passed {o : AppOpts} {s a : AState} {l : App.Label} {b : Blk} (hst : App.step o s l = some a)
    (hb : b ∈ passed s l) : ∃ i, l = .work i ∧ s.apps[i]? = some ⟨b, .queued⟩ ∧ s.lib < b.height ∧
      passed s l = [b] ∧ ⟨b, .inRPC⟩ ∈ a.apps := by
  cases l with
  | work i =>
    obtain ⟨c, hc, h⟩ := App.step_work hst
    simp only [passed, hc] at hb ⊢
    split at hb
    · cases hb
    · rename_i hh
      rcases h with ⟨h1, _⟩ | ⟨_, h2⟩
      · exact absurd h1 hh
      · cases List.mem_singleton.1 hb
        refine ⟨i, rfl, hc, UInt64.not_le.1 hh, by simp [hh], ?_⟩
        rw [h2]
        obtain ⟨hi, _⟩ := List.getElem?_eq_some_iff.1 hc
        exact List.mem_set hi _
  | _ => cases hb

theorem passed_nodup (s : AState) (l : App.Label) : (passed s l).Nodup := by
  cases l with
  | work i =>
    simp only [passed]
    split
    · split <;> simp
    · simp
  | _ => exact List.nodup_nil

theorem winv_step {o : AppOpts} {s s' : State} {l : Label} (h : WInv o s) (hst : step o s l = some s') : WInv o s' := by
  cases l with
  | app l =>
    obtain ⟨he, a, ha, rfl⟩ := step_app hst
    obtain ⟨_, hr⟩ := frame h.app ha
    refine ⟨App.inv_step o _ _ _ h.app ha, ?_, ?_⟩
    · refine List.nodup_append'.2 ⟨passed_nodup _ _, h.nodup, ?_⟩
      intro b hb hb'
      obtain ⟨i, _, hi, _⟩ := mem_passed ha hb
      obtain ⟨j, hj⟩ := List.getElem?_of_mem (h.rpc b hb')
      have hn := h.app.nodup
      have hij : i = j := by
        obtain ⟨hi', hi⟩ := List.getElem?_eq_some_iff.1 hi
        obtain ⟨hj', hj⟩ := List.getElem?_eq_some_iff.1 hj
        refine (hn.getElem_inj_iff (hi := by simpa using hi') (hj := by simpa using hj')).1 ?_
        simp only [List.getElem_map, hi, hj]
      subst hij
      rw [hi] at hj
      cases hj
    · intro b hb
      rcases List.mem_append.1 hb with hb' | hb'
      · obtain ⟨_, _, _, _, _, hm⟩ := mem_passed ha hb'
        exact hm
      · rcases hr b (h.rpc b hb') with h1 | ⟨i, e, rfl, hi⟩
        · exact h1
        · simp only [early, hi, decide_eq_false_iff_not] at he
          exact absurd hb' he
  | send b =>
    obtain ⟨_, rfl⟩ := step_send hst
    exact ⟨h.app, h.nodup.erase b, fun c hc => h.rpc c (List.mem_of_mem_erase hc)⟩

theorem winv_run {o : AppOpts} {s s' : State} {ls : List Label} (h : WInv o s) (hr : run o s ls = some s') : WInv o s' := by
  induction ls generalizing s with
  | nil => cases hr; exact h
  | cons l ls ih =>
    simp only [run] at hr
    cases hst : step o s l with
    | none => rw [hst] at hr; cases hr
    | some s1 => rw [hst] at hr; exact ih (winv_step h hst) hr

/-- Every block that is to be sent was compared, and since then it was not sent, and only the reports of
irreversibility since then have moved the height. -/
theorem ready_origin {o : AppOpts} {s0 : State} (h0 : WInv o s0) (hr0 : s0.ready = []) (ls : List Label) :
    ∀ s, run o s0 ls = some s → ∀ b ∈ s.ready, ∃ p i q s1, ls = p ++ .app (.work i) :: q ∧ run o s0 p = some s1 ∧
      s1.app.apps[i]? = some ⟨b, .queued⟩ ∧ s1.app.lib < b.height ∧ .send b ∉ q ∧
      (s.app.lib = s1.app.lib ∨ ∃ heads, .app (.forkHeads heads s.app.lib) ∈ q) := by
  induction ls using List.reverseRecOn with
  | nil => intro s hr b hb; cases hr; rw [hr0] at hb; cases hb
  | append_singleton ls l ih =>
    intro s hr b hb
    obtain ⟨s2, h2, hst⟩ := run_snoc hr
    have hw := winv_run h0 h2
    cases l with
    | app l =>
      obtain ⟨he, a, ha, rfl⟩ := step_app hst
      rcases List.mem_append.1 hb with hb | hb
      · obtain ⟨i, rfl, hi, hl, _, _⟩ := mem_passed ha hb
        refine ⟨ls, i, [], s2, rfl, h2, hi, hl, by simp, ?_⟩
        rcases (frame hw.app ha).1 with h | ⟨heads, h⟩
        · exact Or.inl h
        · cases h
      · obtain ⟨p, i, q, s1, rfl, h1, hi, hl, hq, hlib⟩ := ih s2 h2 b hb
        refine ⟨p, i, q ++ [.app l], s1, by simp, h1, hi, hl, ?_, ?_⟩
        · simpa using hq
        · rcases (frame hw.app ha).1 with h | ⟨heads, h⟩
          · simp only [h]
            rcases hlib with hlib | ⟨heads, hlib⟩
            · exact Or.inl hlib
            · exact Or.inr ⟨heads, List.mem_append_left _ hlib⟩
          · exact Or.inr ⟨heads, List.mem_append_right _ (by rw [← h]; exact List.mem_singleton.2 rfl)⟩
    | send c =>
      obtain ⟨hc, rfl⟩ := step_send hst
      have hbc : b ≠ c ∧ b ∈ s2.ready := (hw.nodup.mem_erase_iff).1 hb
      obtain ⟨p, i, q, s1, rfl, h1, hi, hl, hq, hlib⟩ := ih s2 h2 b hbc.2
      refine ⟨p, i, q ++ [.send c], s1, by simp, h1, hi, hl, ?_, ?_⟩
      · simp only [List.mem_append, List.mem_singleton, Label.send.injEq, not_or]
        exact ⟨hq, hbc.1⟩
      · rcases hlib with hlib | ⟨heads, hlib⟩
        · exact Or.inl hlib
        · exact Or.inr ⟨heads, List.mem_append_left _ hlib⟩

end Window
end KP2P

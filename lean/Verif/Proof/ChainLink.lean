import Verif.Spec.ChainLink
import Verif.Proof.ApplicatorSched
import Verif.Props.ApplicatorSched
/-!
# Why no block is forgotten: the invariant behind C111
-/

namespace KP2P
namespace Link

open App (Waiting Known Forced)

/-! ### Inversion of steps -/

theorem step_accept {o : AppOpts} {s s' : State} {id prev : Bytes} {h : UInt64} (hst : step o s (.accept id prev h) = some s') :
    Has s prev ∧ ¬ Has s id ∧ s' = { s with accepted := (id, h) :: s.accepted, news := s.news ++ [(id, h)] } := by
  simp only [step] at hst
  split at hst
  · rename_i hc; simp only [Option.some.injEq] at hst; exact ⟨hc.1, hc.2, hst.symm⟩
  · cases hst

theorem step_deliver {o : AppOpts} {s s' : State} {i : Nat} (hst : step o s (.deliver i) = some s') :
    ∃ id h a, s.news[i]? = some (id, h) ∧ App.step o s.app (.broadcast id h) = some a ∧
      s' = { s with app := a, news := s.news.eraseIdx i } := by
  simp only [step] at hst
  split at hst
  · rename_i id h hn
    obtain ⟨a, ha, rfl⟩ := Option.map_eq_some_iff.1 hst
    exact ⟨id, h, a, hn, ha, rfl⟩
  · cases hst

theorem step_act {o : AppOpts} {s s' : State} {l : App.Label} (hst : step o s (.act l) = some s') :
    ∃ a, App.step o s.app l = some a ∧ s' = { s with app := a } ∧ (∀ id h, l ≠ .broadcast id h) ∧
      ∀ i e x, l = .rpcReturn i e → s.app.apps[i]? = some x → honest s x.blk e = true := by
  cases l with
  | broadcast id h => simp [step] at hst
  | rpcReturn i e =>
    simp only [step] at hst
    split at hst
    · rename_i x hx
      split at hst
      · rename_i hh
        obtain ⟨a, ha, rfl⟩ := Option.map_eq_some_iff.1 hst
        refine ⟨a, ha, rfl, (by rintro _ _ ⟨⟩), ?_⟩
        rintro j e' x' hj hx'
        cases hj
        rw [hx] at hx'; cases hx'; exact hh
      · cases hst
    · cases hst
  | _ =>
    simp only [Link.step] at hst
    obtain ⟨a, ha, rfl⟩ := Option.map_eq_some_iff.1 hst
    exact ⟨a, ha, rfl, (by rintro _ _ ⟨⟩), (by rintro _ _ _ ⟨⟩)⟩

/-! ### Facts about single steps of the applicator -/

theorem highest_mono {o : AppOpts} {s s' : AState} {l : App.Label} (hinv : App.Inv o s) (hst : App.step o s l = some s') :
    s.highest ≤ s'.highest := by
  cases l with
  | applyBlock c => rcases App.step_applyBlock hst with ⟨e, _, rfl⟩ | ⟨_, rfl⟩ <;> exact UInt64.le_refl _
  | callerReturns r => obtain ⟨_, e, _, rfl⟩ := App.step_callerReturns hst; exact UInt64.le_refl _
  | callerTimesOut r => obtain ⟨_, rfl⟩ := App.step_callerTimesOut hst; exact UInt64.le_refl _
  | newBlock i =>
    obtain ⟨_, r, c, hq, rfl⟩ := App.step_newBlock hst
    unfold App.handleNewBlock
    split
    · exact UInt64.le_refl _
    · obtain ⟨m, p, hh', hf⟩ := App.addTables_frame { s with newQ := s.newQ.eraseIdx i } r c
      rcases App.addBlockEntry_cases { s with newQ := s.newQ.eraseIdx i } r c with ⟨_, he⟩ | ⟨h1, h2, he⟩ <;>
        (rw [he, hf]; exact UInt64.le_refl _)
  | forkHeads heads lib =>
    obtain ⟨_, rfl⟩ := App.step_forkHeads hst
    rw [App.handleForkHeads_eq]
    have h2 := (App.evict_spec (App.heights s.lib lib)
      { s with lib := lib, watchdog := s.watchdog.purge lib, tries := s.tries ++ heads.flatMap (App.kids o s) }
      (hinv.idx.of_eq rfl rfl rfl)).2.1.highest
    exact UInt64.le_of_eq h2.symm
  | broadcast id height =>
    obtain ⟨_, rfl⟩ := App.step_broadcast hst
    rw [App.handleBroadcast_eq]
    simp only
    split
    · rename_i h; exact UInt64.le_of_lt h
    · exact UInt64.le_refl _
  | tryBlock i =>
    obtain ⟨_, c, f, ht, rfl⟩ := App.step_tryBlock hst
    unfold App.handleTry
    split
    · split <;> exact UInt64.le_refl _
    · exact UInt64.le_refl _
  | status i =>
    obtain ⟨_, c, e, ha, rfl⟩ := App.step_status hst
    rcases App.handleStatus_cases o { s with apps := s.apps.eraseIdx i } c e with ⟨hb, hs⟩ | ⟨hb, hu, hs⟩ | ⟨hb, hu, hs⟩
    · rw [hs]; exact UInt64.le_refl _
    · rw [hs]; exact UInt64.le_refl _
    · rw [hs, (App.onlyRemoved_remove _ _ _).highest]; exact UInt64.le_refl _
  | delayDone i => obtain ⟨c, t, t', ha, _, rfl⟩ := App.step_delayDone hst; exact UInt64.le_refl _
  | delayTimeout i => obtain ⟨c, t, t', ha, _, rfl⟩ := App.step_delayTimeout hst; exact UInt64.le_refl _
  | work i => obtain ⟨c, ha, ⟨_, rfl⟩ | ⟨_, rfl⟩⟩ := App.step_work hst <;> exact UInt64.le_refl _
  | rpcReturn i e => obtain ⟨c, ha, rfl⟩ := App.step_rpcReturn hst; exact UInt64.le_refl _
  | retryDue i => obtain ⟨t, c, hr, _, rfl⟩ := App.step_retryDue hst; exact UInt64.le_refl _
  | tick d => rw [App.step_tick hst]; exact UInt64.le_refl _

/-! ### Help is on its way -/

/-- The application has ended with unknown-previous-block and will leave its block waiting. -/
def Stuck (st : Stage) : Prop := ∃ e, st = .done e ∧ errIs e .unknownPreviousBlock = true ∧ errIs e .blockState = false

/-- Something under way will bring the waiting block to the chain again. -/
def Helped (N : Prop) (s : AState) (b : Blk) : Prop :=
  N ∨ Forced s b ∨ (∃ a ∈ s.apps, a.blk = b ∧ ¬ Stuck a.stage) ∨
  ((∃ f, (b, f) ∈ s.tries) ∧ ∀ a ∈ s.apps, a.blk.id = b.id → ¬ Stuck a.stage) ∨
  ∃ a ∈ s.apps, a.blk.id = b.previous

theorem Helped.mono {N : Prop} {s s' : AState} {b : Blk} (h : Helped N s b) (h1 : ∀ x ∈ s.tries, x ∈ s'.tries)
    (h2 : ∀ x ∈ s.retries, x ∈ s'.retries) (h3 : s'.apps = s.apps) : Helped N s' b := by
  unfold Helped Forced at *
  rw [h3]
  rcases h with h | (h | ⟨t, h⟩) | h | ⟨⟨f, h⟩, h'⟩ | h
  · exact Or.inl h
  · exact Or.inr (Or.inl (Or.inl (h1 _ h)))
  · exact Or.inr (Or.inl (Or.inr ⟨t, h2 _ h⟩))
  · exact Or.inr (Or.inr (Or.inl h))
  · exact Or.inr (Or.inr (Or.inr (Or.inl ⟨⟨f, h1 _ h⟩, h'⟩)))
  · exact Or.inr (Or.inr (Or.inr (Or.inr h)))

theorem mem_set_or {α : Type} {l : List α} {i : Nat} {x y z : α} (h : l[i]? = some x) (hz : z ∈ l) : z ∈ l.set i y ∨ z = x := by
  obtain ⟨j, hj⟩ := List.mem_iff_getElem?.1 hz
  by_cases hij : i = j
  · subst hij; right; rw [h] at hj; cases hj; rfl
  · left
    refine List.mem_iff_getElem?.2 ⟨j, ?_⟩
    rw [List.getElem?_set_ne hij]; exact hj

theorem mem_set_self {α : Type} {l : List α} {i : Nat} {x y : α} (h : l[i]? = some x) : y ∈ l.set i y := by
  obtain ⟨hi, _⟩ := List.getElem?_eq_some_iff.1 h
  exact List.mem_iff_getElem?.2 ⟨i, by rw [List.getElem?_set_self hi]⟩

theorem Helped.setApp {N : Prop} {s s' : AState} {b c : Blk} {i : Nat} {st st' : Stage} (h : Helped N s b)
    (ha : s.apps[i]? = some ⟨c, st⟩) (hst : c.id = b.id → ¬ Stuck st') (h1 : s'.tries = s.tries)
    (h2 : s'.retries = s.retries) (h3 : s'.apps = s.apps.set i ⟨c, st'⟩) : Helped N s' b := by
  unfold Helped Forced at *
  rw [h1, h2, h3]
  rcases h with h | h | ⟨a, h, rfl, hs⟩ | ⟨h, h'⟩ | ⟨a, h, hp⟩
  · exact Or.inl h
  · exact Or.inr (Or.inl h)
  · refine Or.inr (Or.inr (Or.inl ?_))
    rcases mem_set_or (y := ⟨c, st'⟩) ha h with hm | rfl
    · exact ⟨a, hm, rfl, hs⟩
    · exact ⟨⟨c, st'⟩, mem_set_self ha, rfl, hst rfl⟩
  · refine Or.inr (Or.inr (Or.inr (Or.inl ⟨h, fun a hm hid => ?_⟩)))
    rcases List.mem_or_eq_of_mem_set hm with hm | rfl
    · exact h' a hm hid
    · exact hst hid
  · refine Or.inr (Or.inr (Or.inr (Or.inr ?_)))
    rcases mem_set_or (y := ⟨c, st'⟩) ha h with hm | rfl
    · exact ⟨a, hm, hp⟩
    · exact ⟨⟨c, st'⟩, mem_set_self ha, hp⟩

theorem app_unique {o : AppOpts} {s : AState} {i : Nat} {x a : BApp} (hinv : App.Inv o s) (ha : s.apps[i]? = some x)
    (hm : a ∈ s.apps.eraseIdx i) : a.blk.id ≠ x.blk.id := by
  have hp := (App.perm_eraseIdx ha).map (·.blk.id)
  have hn := hp.nodup_iff.1 hinv.nodup
  rw [List.map_cons, List.nodup_cons] at hn
  intro he
  exact hn.1 (he ▸ List.mem_map_of_mem hm)

theorem not_stuck {s : AState} {b : Blk} (h : ¬ TooEarly s b) : ∀ a ∈ s.apps, a.blk.id = b.id → ¬ Stuck a.stage :=
  fun a ha hid ⟨e, he, hu, _⟩ => h ⟨a, ha, hid, e, he, hu⟩

/-- One step of the applicator keeps the promise. -/
theorem helped_act {o : AppOpts} {s s' : AState} {l : App.Label} {b : Blk} {N : Prop} (hinv : App.Inv o s) (hprov : App.Prov s)
    (hst : App.step o s l = some s') (hnb : ∀ id h, l ≠ .broadcast id h) (hone : OnlyOne s.log b) (hw' : Waiting s' b)
    (hrpc : ∀ i e x, l = .rpcReturn i e → s.apps[i]? = some x → x.blk = b → errIs e .unknownPreviousBlock = false)
    (hkeep : Waiting s b → ∀ i p e, l = .status i → s.apps[i]? = some ⟨p, .done (some e)⟩ → p.id ≠ b.previous)
    (hleft : ∀ i r, l = .newBlock i → s.newQ[i]? = some (r, b) → ¬ Waiting s b → ¬ TooEarly s b)
    (hrec : Waiting s b → TooEarly s b → ∀ i p, l = .status i → s.apps[i]? = some ⟨p, .done none⟩ → p.id = b.previous →
      App.forceFor o s.now b = true)
    (hh : N ∨ b.height.toNat ≤ s.highest.toNat + 1) (hov : s.highest.toNat + 1 < 2 ^ 64)
    (ih : Waiting s b → Helped N s b) : Helped N s' b := by
  have same : ∀ t : AState, s' = t → t.byId = s.byId → t.tries = s.tries → t.retries = s.retries → t.apps = s.apps →
      Helped N s' b := by
    rintro t rfl h1 h2 h3 h4
    have hw : Waiting s b := by unfold Waiting at *; rw [h1] at hw'; exact hw'
    exact (ih hw).mono (by rw [h2]; exact fun _ h => h) (by rw [h3]; exact fun _ h => h) h4
  have setA : ∀ (t : AState) (i : Nat) (c : Blk) (st st' : Stage), s' = t → t.byId = s.byId → t.tries = s.tries →
      t.retries = s.retries → s.apps[i]? = some ⟨c, st⟩ → t.apps = s.apps.set i ⟨c, st'⟩ → (c.id = b.id → ¬ Stuck st') →
      Helped N s' b := by
    rintro t i c st st' rfl h1 h2 h3 h4 h5 h6
    have hw : Waiting s b := by unfold Waiting at *; rw [h1] at hw'; exact hw'
    exact (ih hw).setApp h4 h6 h2 h3 h5
  have appIs : ∀ a ∈ s.apps, a.blk.id = b.id → a.blk = b := fun a ha hid => hone _ (hprov.apps a ha) hid
  cases l with
  | applyBlock c => rcases App.step_applyBlock hst with ⟨e, _, h⟩ | ⟨_, h⟩ <;> exact same _ h rfl rfl rfl rfl
  | callerReturns r => obtain ⟨_, e, _, h⟩ := App.step_callerReturns hst; exact same _ h rfl rfl rfl rfl
  | callerTimesOut r => obtain ⟨_, h⟩ := App.step_callerTimesOut hst; exact same _ h rfl rfl rfl rfl
  | newBlock i =>
    obtain ⟨_, r, c, hq, h⟩ := App.step_newBlock hst
    have hck : Known s.log c := ⟨r, hprov.newQ _ (App.mem_of_getElem? hq)⟩
    unfold App.handleNewBlock at h
    cases ha : App.admission o { s with newQ := s.newQ.eraseIdx i } c with
    | some e => rw [ha] at h; exact same _ h rfl rfl rfl rfl
    | none =>
      rw [ha] at h
      simp only at h
      have hget := App.get_addTables { s with newQ := s.newQ.eraseIdx i } r c b.id
      obtain ⟨m, p, q, hf⟩ := App.addTables_frame { s with newQ := s.newQ.eraseIdx i } r c
      have hby : s'.byId = (App.addTables { s with newQ := s.newQ.eraseIdx i } r c).byId := by
        rcases App.addBlockEntry_cases { s with newQ := s.newQ.eraseIdx i } r c with ⟨_, he⟩ | ⟨_, _, he⟩ <;> rw [h, he]
      have htr : ∀ x ∈ s.tries, x ∈ s'.tries := by
        intro x hx
        rcases App.addBlockEntry_cases { s with newQ := s.newQ.eraseIdx i } r c with ⟨_, he⟩ | ⟨_, _, he⟩
        · rw [h, he, hf]; exact hx
        · rw [h, he, hf]; exact List.mem_append_left _ hx
      have hre : s'.retries = s.retries := by
        rcases App.addBlockEntry_cases { s with newQ := s.newQ.eraseIdx i } r c with ⟨_, he⟩ | ⟨_, _, he⟩ <;>
          rw [h, he, hf]
      have hap : s'.apps = s.apps := by
        rcases App.addBlockEntry_cases { s with newQ := s.newQ.eraseIdx i } r c with ⟨_, he⟩ | ⟨_, _, he⟩ <;>
          rw [h, he, hf]
      by_cases hw : Waiting s b
      · exact (ih hw).mono htr (by rw [hre]; exact fun _ h => h) hap
      · -- the block is `c` and was not waiting
        obtain ⟨x, hx, hxb⟩ := hw'
        rw [hby, hget] at hx
        by_cases hid : b.id = c.id
        swap
        · rw [if_neg hid] at hx
          exact absurd ⟨x, hx, hxb⟩ hw
        have hcb : c = b := hone c hck hid.symm
        subst hcb
        have hno := hleft i r rfl hq hw
        rcases App.addBlockEntry_cases { s with newQ := s.newQ.eraseIdx i } r c with ⟨hd, he⟩ | ⟨_, _, he⟩
        · rcases hd with hd | hd
          · rcases hh with hN | hle
            · exact Or.inl hN
            · exfalso
              have h1 : (s.highest + 1).toNat = s.highest.toNat + 1 := by
                rw [UInt64.toNat_add]; exact Nat.mod_eq_of_lt hov
              have h2 : (s.highest + 1).toNat < c.height.toNat := UInt64.lt_iff_toNat_lt.1 hd
              omega
          · obtain ⟨a, ha, hp⟩ := List.mem_map.1 ((hinv.pend c.previous).1 hd)
            exact Or.inr (Or.inr (Or.inr (Or.inr ⟨a, by rw [hap]; exact ha, hp⟩)))
        · refine Or.inr (Or.inr (Or.inr (Or.inl ⟨⟨false, ?_⟩, ?_⟩)))
          · rw [h, he, hf]; exact List.mem_append_right _ (List.mem_singleton.2 rfl)
          · rw [hap]; exact not_stuck hno
  | forkHeads heads lib =>
    obtain ⟨_, h⟩ := App.step_forkHeads hst
    rw [App.handleForkHeads_eq] at h
    obtain ⟨_, h2, h3⟩ := App.evict_spec (App.heights s.lib lib)
      { s with lib := lib, watchdog := s.watchdog.purge lib, tries := s.tries ++ heads.flatMap (App.kids o s) }
      (hinv.idx.of_eq rfl rfl rfl)
    have hw : Waiting s b := by
      obtain ⟨x, hx, hxb⟩ := hw'
      rw [h] at hx
      simp only [h3] at hx
      obtain ⟨y, hy, hyx⟩ := Option.bind_eq_some_iff.1 hx
      split at hyx
      · cases hyx
      · cases hyx; exact ⟨x, hy, hxb⟩
    refine (ih hw).mono ?_ ?_ ?_
    · intro x hx
      have := h2.tries
      rw [h]; simp only at this ⊢; rw [this]; exact List.mem_append_left _ hx
    · intro x hx
      have := h2.retries
      rw [h]; simp only at this ⊢; rw [this]; exact hx
    · have := h2.apps
      rw [h]; simp only at this ⊢; exact this
  | broadcast id height => exact absurd rfl (hnb id height)
  | tryBlock i =>
    obtain ⟨_, c, f, ht, h⟩ := App.step_tryBlock hst
    unfold App.handleTry at h
    have hck : Known s.log c := hprov.tries _ (App.mem_of_getElem? ht)
    have hw : Waiting s b := by
      unfold Waiting at *
      have : s'.byId = s.byId := by rw [h]; split; · split <;> rfl
                                    · rfl
      rw [this] at hw'; exact hw'
    have old := ih hw
    split at h
    · rename_i hp
      have hapE : s'.apps = s.apps := by rw [h]; split <;> rfl
      by_cases hcb : c = b
      · subst hcb
        cases f with
        | true =>
          refine Or.inr (Or.inl (Or.inr ⟨s.now + o.forceApplicationRetryDelay, ?_⟩))
          rw [h]; exact List.mem_append_right _ (List.mem_singleton.2 rfl)
        | false =>
          simp only [Bool.false_eq_true, if_false] at h
          rcases old with h1 | (h1 | ⟨t, h1⟩) | h1 | ⟨h1, h1'⟩ | h1
          · exact Or.inl h1
          · refine Or.inr (Or.inl (Or.inl ?_))
            rw [h]; exact App.mem_eraseIdx_of_ne ht h1 (by simp)
          · refine Or.inr (Or.inl (Or.inr ⟨t, ?_⟩))
            rw [h]; exact h1
          · refine Or.inr (Or.inr (Or.inl ?_)); rw [hapE]; exact h1
          · obtain ⟨a, ha, hid⟩ := List.mem_map.1 ((hinv.pend c.id).1 hp)
            refine Or.inr (Or.inr (Or.inl ⟨a, by rw [hapE]; exact ha, appIs a ha hid, h1' a ha hid⟩))
          · refine Or.inr (Or.inr (Or.inr (Or.inr ?_))); rw [hapE]; exact h1
      · have keep : ∀ g, (b, g) ∈ s.tries → (b, g) ∈ s'.tries := by
          intro g hg
          have : (b, g) ∈ s.tries.eraseIdx i := App.mem_eraseIdx_of_ne ht hg (by rintro ⟨⟩; exact hcb rfl)
          rw [h]; split <;> exact this
        have keep2 : ∀ x ∈ s.retries, x ∈ s'.retries := by
          intro x hx
          rw [h]; split
          · exact List.mem_append_left _ hx
          · exact hx
        rcases old with h1 | (h1 | ⟨t, h1⟩) | h1 | ⟨⟨g, h1⟩, h1'⟩ | h1
        · exact Or.inl h1
        · exact Or.inr (Or.inl (Or.inl (keep _ h1)))
        · exact Or.inr (Or.inl (Or.inr ⟨t, keep2 _ h1⟩))
        · refine Or.inr (Or.inr (Or.inl ?_)); rw [hapE]; exact h1
        · refine Or.inr (Or.inr (Or.inr (Or.inl ⟨⟨g, keep _ h1⟩, ?_⟩))); rw [hapE]; exact h1'
        · refine Or.inr (Or.inr (Or.inr (Or.inr ?_))); rw [hapE]; exact h1
    · rename_i hp
      have hapE : s'.apps = s.apps ++ [App.beginApp o s.now c] := by rw [h]
      have hblk : (App.beginApp o s.now c).blk = c := by unfold App.beginApp; dsimp only; split <;> rfl
      have hstk : ¬ Stuck (App.beginApp o s.now c).stage := by
        unfold App.beginApp Stuck; dsimp only; split <;> simp
      by_cases hcb : c = b
      · subst hcb
        exact Or.inr (Or.inr (Or.inl ⟨_, by rw [hapE]; exact List.mem_append_right _ (List.mem_singleton.2 rfl), hblk, hstk⟩))
      · have keep : ∀ g, (b, g) ∈ s.tries → (b, g) ∈ s'.tries := by
          intro g hg
          rw [h]; exact App.mem_eraseIdx_of_ne ht hg (by rintro ⟨⟩; exact hcb rfl)
        rcases old with h1 | (h1 | ⟨t, h1⟩) | ⟨a, h1, h2⟩ | ⟨⟨g, h1⟩, h1'⟩ | ⟨a, h1, h2⟩
        · exact Or.inl h1
        · exact Or.inr (Or.inl (Or.inl (keep _ h1)))
        · refine Or.inr (Or.inl (Or.inr ⟨t, ?_⟩)); rw [h]; exact h1
        · exact Or.inr (Or.inr (Or.inl ⟨a, by rw [hapE]; exact List.mem_append_left _ h1, h2⟩))
        · refine Or.inr (Or.inr (Or.inr (Or.inl ⟨⟨g, keep _ h1⟩, ?_⟩)))
          rw [hapE]
          intro a ha hid
          rcases List.mem_append.1 ha with ha | ha
          · exact h1' a ha hid
          · rw [List.mem_singleton.1 ha]; exact hstk
        · exact Or.inr (Or.inr (Or.inr (Or.inr ⟨a, by rw [hapE]; exact List.mem_append_left _ h1, h2⟩)))
  | status i =>
    obtain ⟨_, c, e, ha, h⟩ := App.step_status hst
    -- what survives, whatever happens to the block that was applied
    have other : Waiting s b → s'.apps = s.apps.eraseIdx i → (∀ x ∈ s.tries, x ∈ s'.tries) → s'.retries = s.retries →
        (c.id = b.id → Stuck (.done e)) → c.id ≠ b.previous → Helped N s' b := by
      intro hw h1 h2 h3 h4 h5
      rcases ih hw with k | (k | ⟨t, k⟩) | ⟨a, k, k1, k2⟩ | ⟨⟨g, k⟩, k'⟩ | ⟨a, k, k1⟩
      · exact Or.inl k
      · exact Or.inr (Or.inl (Or.inl (h2 _ k)))
      · exact Or.inr (Or.inl (Or.inr ⟨t, by rw [h3]; exact k⟩))
      · refine Or.inr (Or.inr (Or.inl ⟨a, ?_, k1, k2⟩))
        rw [h1]
        refine App.mem_eraseIdx_of_ne ha k ?_
        rintro rfl
        exact k2 (h4 (by rw [← k1]))
      · refine Or.inr (Or.inr (Or.inr (Or.inl ⟨⟨g, h2 _ k⟩, ?_⟩)))
        rw [h1]
        intro a hm hid
        exact k' a (List.mem_of_mem_eraseIdx hm) hid
      · refine Or.inr (Or.inr (Or.inr (Or.inr ⟨a, ?_, k1⟩)))
        rw [h1]
        refine App.mem_eraseIdx_of_ne ha k ?_
        rintro rfl
        exact h5 k1
    have hcIs : c.id = b.id → c = b := fun hid => appIs ⟨c, .done e⟩ (App.mem_of_getElem? ha) hid
    rcases App.handleStatus_cases o { s with apps := s.apps.eraseIdx i } c e with ⟨hb, hs⟩ | ⟨hb, hu, hs⟩ | ⟨hb, hu, hs⟩
    · rw [hs] at h
      have hw : Waiting s b := by rw [h] at hw'; exact hw'
      have hne : c.id ≠ b.previous := by
        cases e with
        | none => cases hb
        | some e => exact hkeep hw i c e rfl ha
      by_cases hid : c.id = b.id
      · have hcb := hcIs hid
        refine Or.inr (Or.inr (Or.inr (Or.inl ⟨⟨false, ?_⟩, ?_⟩)))
        · rw [h, hcb]; exact List.mem_append_right _ (List.mem_singleton.2 rfl)
        · rw [h]
          intro a hm hid'
          exact absurd (hid'.trans hid.symm) (app_unique hinv ha hm)
      · exact other hw (by rw [h]; rfl) (by rw [h]; exact fun _ hx => List.mem_append_left _ hx) (by rw [h]; rfl)
          (fun hx => absurd hx hid) hne
    · rw [hs] at h
      have hw : Waiting s b := by rw [h] at hw'; exact hw'
      have hne : c.id ≠ b.previous := by
        cases e with
        | none => cases hu
        | some e => exact hkeep hw i c e rfl ha
      exact other hw (by rw [h]; rfl) (by rw [h]; exact fun _ hx => hx) (by rw [h]; rfl) (fun _ => ⟨e, rfl, hu, hb⟩) hne
    · rw [hs] at h
      have hr := App.onlyRemoved_remove { App.afterStatus { s with apps := s.apps.eraseIdx i } c e with
        tries := s.tries ++ App.wakes o { s with apps := s.apps.eraseIdx i } c e } c.id e
      have hg := App.get_remove { App.afterStatus { s with apps := s.apps.eraseIdx i } c e with
        tries := s.tries ++ App.wakes o { s with apps := s.apps.eraseIdx i } c e } c.id e b.id
      simp only at h
      have hnid : b.id ≠ c.id ∧ Waiting s b := by
        obtain ⟨x, hx, hxb⟩ := hw'
        rw [h, hg] at hx
        split at hx
        · cases hx
        · rename_i hn; exact ⟨hn, x, hx, hxb⟩
      obtain ⟨hnid, hw⟩ := hnid
      have htr : s'.tries = s.tries ++ App.wakes o { s with apps := s.apps.eraseIdx i } c e := by rw [h]; exact hr.tries
      by_cases hp : c.id = b.previous
      · cases e with
        | some e => exact absurd hp (hkeep hw i c e rfl ha)
        | none =>
          have hwake : ∀ f, f = App.forceFor o s.now b → (b, f) ∈ s'.tries := by
            intro f hf
            rw [htr]
            refine List.mem_append_right _ ?_
            unfold App.wakes
            rw [if_pos rfl]
            exact (App.mem_kids (s := { s with apps := s.apps.eraseIdx i }) (hinv.idx.of_eq rfl rfl rfl) c.id (b, f)).2
              ⟨hw, hp.symm, hf⟩
          by_cases hte : TooEarly s b
          · exact Or.inr (Or.inl (Or.inl (hwake true (hrec hw hte i c rfl ha hp).symm)))
          · refine Or.inr (Or.inr (Or.inr (Or.inl ⟨⟨_, hwake _ rfl⟩, fun a hm hid => ?_⟩)))
            rw [show s'.apps = s.apps.eraseIdx i by rw [h]; exact hr.apps] at hm
            exact not_stuck hte a (List.mem_of_mem_eraseIdx hm) hid
      · exact other hw (by rw [h]; exact hr.apps) (by rw [htr]; exact fun _ hx => List.mem_append_left _ hx)
          (by rw [h]; exact hr.retries) (fun hx => absurd hx.symm hnid) hp
  | delayDone i =>
    obtain ⟨c, t, t', ha, _, h⟩ := App.step_delayDone hst
    exact setA _ i c _ .queued h rfl rfl rfl ha rfl (by rintro _ ⟨_, ⟨⟩, _⟩)
  | delayTimeout i =>
    obtain ⟨c, t, t', ha, _, h⟩ := App.step_delayTimeout hst
    exact setA _ i c _ (.done none) h rfl rfl rfl ha rfl (by rintro _ ⟨_, ⟨⟩, h, _⟩; cases h)
  | work i =>
    obtain ⟨c, ha, ⟨_, h⟩ | ⟨_, h⟩⟩ := App.step_work hst
    · exact setA _ i c _ _ h rfl rfl rfl ha rfl (by rintro _ ⟨_, ⟨⟩, h, _⟩; cases h)
    · exact setA _ i c _ .inRPC h rfl rfl rfl ha rfl (by rintro _ ⟨_, ⟨⟩, _⟩)
  | rpcReturn i e =>
    obtain ⟨c, ha, h⟩ := App.step_rpcReturn hst
    refine setA _ i c _ (.done e) h rfl rfl rfl ha rfl ?_
    rintro hid ⟨e', he, hu, _⟩
    cases he
    rw [hrpc i e _ rfl ha (appIs _ (App.mem_of_getElem? ha) hid)] at hu
    cases hu
  | retryDue i =>
    obtain ⟨t, c, hr, _, h⟩ := App.step_retryDue hst
    have hw : Waiting s b := by rw [h] at hw'; exact hw'
    rcases ih hw with k | (k | ⟨t', k⟩) | k | ⟨⟨g, k⟩, k'⟩ | k
    · exact Or.inl k
    · refine Or.inr (Or.inl (Or.inl ?_)); rw [h]; exact List.mem_append_left _ k
    · by_cases hx : (t', b) = (t, c)
      · cases hx
        refine Or.inr (Or.inl (Or.inl ?_)); rw [h]; exact List.mem_append_right _ (List.mem_singleton.2 rfl)
      · refine Or.inr (Or.inl (Or.inr ⟨t', ?_⟩)); rw [h]; exact App.mem_eraseIdx_of_ne hr k hx
    · refine Or.inr (Or.inr (Or.inl ?_)); rw [h]; exact k
    · refine Or.inr (Or.inr (Or.inr (Or.inl ⟨⟨g, ?_⟩, ?_⟩)))
      · rw [h]; exact List.mem_append_left _ k
      · rw [h]; exact k'
    · refine Or.inr (Or.inr (Or.inr (Or.inr ?_))); rw [h]; exact k
  | tick d => exact same _ (App.step_tick hst) rfl rfl rfl rfl

/-! ### The invariant of the composition -/

/-- An announcement of the block's parent is under way. -/
def Coming (s : State) (b : Blk) : Prop := ∃ h, (b.previous, h) ∈ s.news

structure LInv (o : AppOpts) (s : State) : Prop where
  inv : App.Inv o s.app
  prov : App.Prov s.app
  heights : ∀ x ∈ s.accepted, x ∈ s.news ∨ x.2 ≤ s.app.highest

/-- The promise. -/
def Kept (s : State) : Prop := s.app.highest.toNat + 1 < 2 ^ 64 → ∀ b, Waiting s.app b → OnlyOne s.app.log b →
  ∀ h, (b.previous, h) ∈ s.accepted → b.height.toNat ≤ h.toNat + 1 → Helped (Coming s b) s.app b

theorem linv_init (o : AppOpts) (hi lib : UInt64) (now : Int) (known : List (Bytes × UInt64)) (hk : ∀ x ∈ known, x.2 ≤ hi) :
    LInv o (init hi lib now known) :=
  ⟨App.inv_init o hi lib now, App.prov_init hi lib now, fun x hx => Or.inr (hk x hx)⟩

theorem linv_step {o : AppOpts} {s s' : State} {l : Label} (h : LInv o s) (hst : step o s l = some s') : LInv o s' := by
  cases l with
  | accept id prev n =>
    obtain ⟨_, _, rfl⟩ := step_accept hst
    refine ⟨h.inv, h.prov, fun x hx => ?_⟩
    rcases List.mem_cons.1 hx with rfl | hx
    · exact Or.inl (List.mem_append_right _ (List.mem_singleton.2 rfl))
    · rcases h.heights x hx with h1 | h1
      · exact Or.inl (List.mem_append_left _ h1)
      · exact Or.inr h1
  | deliver i =>
    obtain ⟨id, n, a, hn, ha, rfl⟩ := step_deliver hst
    refine ⟨App.inv_step o _ _ _ h.inv ha, App.prov_step o _ _ _ h.inv h.prov ha, fun x hx => ?_⟩
    have hm := highest_mono h.inv ha
    rcases h.heights x hx with h1 | h1
    · by_cases hxe : x = (id, n)
      · right
        obtain ⟨_, rfl⟩ := App.step_broadcast ha
        rw [App.handleBroadcast_eq]
        simp only [hxe]
        split
        · exact UInt64.le_refl _
        · rename_i hlt; exact UInt64.not_lt.1 hlt
      · exact Or.inl (App.mem_eraseIdx_of_ne hn h1 hxe)
    · exact Or.inr (UInt64.le_trans h1 hm)
  | act l =>
    obtain ⟨a, ha, rfl, _⟩ := step_act hst
    refine ⟨App.inv_step o _ _ _ h.inv ha, App.prov_step o _ _ _ h.inv h.prov ha, fun x hx => ?_⟩
    rcases h.heights x hx with h1 | h1
    · exact Or.inl h1
    · exact Or.inr (UInt64.le_trans h1 (highest_mono h.inv ha))

theorem OnlyOne.back {log new : List Obs} {b : Blk} (h : OnlyOne (new ++ log) b) : OnlyOne log b := by
  rintro c ⟨r, hc⟩ hid
  exact h c ⟨r, List.mem_append_right _ hc⟩ hid

theorem kept_step {o : AppOpts} {s s' : State} {l : Label} (ho : GoodOpts o) (hi : LInv o s) (hk : Kept s) (hc : Calm o s l)
    (hst : step o s l = some s') : Kept s' := by
  intro hov b hw hone n hacc hb
  cases l with
  | accept id prev m =>
    obtain ⟨_, _, rfl⟩ := step_accept hst
    rcases List.mem_cons.1 hacc with he | hacc
    · cases he
      exact Or.inl ⟨n, List.mem_append_right _ (List.mem_singleton.2 rfl)⟩
    · rcases hk hov b hw hone n hacc hb with ⟨m', h1⟩ | h1
      · exact Or.inl ⟨m', List.mem_append_left _ h1⟩
      · exact Or.inr h1
  | deliver i =>
    obtain ⟨id, m, a, hn, ha, rfl⟩ := step_deliver hst
    have hm := UInt64.le_iff_toNat_le.1 (highest_mono hi.inv ha)
    obtain ⟨_, rfl⟩ := App.step_broadcast ha
    have hEq := App.handleBroadcast_eq o s.app id m
    have hw0 : Waiting s.app b := by simp only [hEq] at hw; exact hw
    have hone0 : OnlyOne s.app.log b := by simp only [hEq] at hone; exact hone
    simp only [hEq] at hov hm ⊢
    by_cases hp : b.previous = id
    · by_cases hte : TooEarly s.app b
      · refine Or.inr (Or.inl (Or.inl (List.mem_append_right _ ?_)))
        have hr := hc.recent b hw0 (Or.inl ⟨i, m, rfl, by rw [hp]; exact hn⟩) hte
        exact (App.mem_kids hi.inv.idx id (b, true)).2 ⟨hw0, hp, (force_of_recent hr.1 ho hr.2).symm⟩
      · exact Or.inr (Or.inr (Or.inr (Or.inl ⟨⟨_, List.mem_append_right _
          ((App.mem_kids hi.inv.idx id (b, App.forceFor o s.app.now b)).2 ⟨hw0, hp, rfl⟩)⟩, not_stuck hte⟩)))
    · rcases hk (by omega) b hw0 hone0 n hacc hb with ⟨m', h1⟩ | h1
      · exact Or.inl ⟨m', App.mem_eraseIdx_of_ne hn h1 (by rintro ⟨⟩; exact hp rfl)⟩
      · exact Helped.mono (Or.inr h1) (fun _ hx => List.mem_append_left _ hx) (fun _ hx => hx) rfl
  | act l =>
    obtain ⟨a, ha, rfl, hnb, hhon⟩ := step_act hst
    have hm := UInt64.le_iff_toNat_le.1 (highest_mono hi.inv ha)
    simp only at hov hw hone
    have hov0 : s.app.highest.toNat + 1 < 2 ^ 64 := by omega
    obtain ⟨new, hl, _⟩ := App.step_log hi.inv ha
    rw [hl] at hone
    have hone0 := hone.back
    have hHas : Has s b.previous := ⟨n, hacc⟩
    refine helped_act (N := Coming s b) hi.inv hi.prov ha hnb hone0 hw ?_ ?_ ?_ ?_ ?_ hov0 ?_
    · intro i e x he hx hxb
      have := hhon i e x he hx
      unfold honest at this
      rw [hxb] at this
      simp only [Bool.and_eq_true, Bool.or_eq_true, Bool.not_eq_true', decide_eq_false_iff_not] at this
      rcases this.2 with h1 | h1
      · exact h1
      · exact absurd hHas h1
    · intro hw0 i p e he hx hp
      exact hc.replies i p e (by rw [he]) hx (by rw [hp]; exact hHas) b hw0 hp.symm
    · intro i r he hx hnw
      exact hc.leftover i r b (by rw [he]) hx hnw
    · intro hw0 hte i p he hx hp
      have hr := hc.recent b hw0 (Or.inr ⟨i, p, by rw [he], hx, hp⟩) hte
      exact force_of_recent hr.1 ho hr.2
    · rcases hi.heights _ hacc with h1 | h1
      · exact Or.inl ⟨n, h1⟩
      · right
        have := UInt64.le_iff_toNat_le.1 h1
        simp only at this
        omega
    · intro hw0
      exact hk hov0 b hw0 hone0 n hacc hb

theorem reach_inv {o : AppOpts} {P : State → Label → Prop} {s : State} (h : Reach o P s) : LInv o s := by
  induction h with
  | init hi lib now known hk => exact linv_init o hi lib now known hk
  | step _ _ hst ih => exact linv_step ih hst

theorem reach_kept {o : AppOpts} {s : State} (ho : GoodOpts o) (h : Reach o (Calm o) s) : Kept s := by
  induction h with
  | init hi lib now known hk =>
    rintro _ b ⟨x, hx, _⟩
    simp [init, App.init] at hx
  | step hr hc hst ih => exact kept_step ho (reach_inv hr) ih hc hst

theorem reach_app {o : AppOpts} {P : State → Label → Prop} {s : State} (h : Reach o P s) : App.Reachable o s.app := by
  induction h with
  | init hi lib now known hk => exact ⟨hi, lib, now, [], rfl⟩
  | @step s s' l hr hc hst ih =>
    have one : ∀ l a, App.step o s.app l = some a → App.Reachable o a := by
      rintro l a ha
      obtain ⟨hi, lib, now, ls, hrun⟩ := ih
      exact ⟨hi, lib, now, ls ++ [l], by rw [App.run_append, hrun]; exact run_one ha⟩
    cases l with
    | accept id prev n => obtain ⟨_, _, rfl⟩ := step_accept hst; exact ih
    | deliver i => obtain ⟨id, n, a, hn, ha, rfl⟩ := step_deliver hst; exact one _ _ ha
    | act l => obtain ⟨a, ha, rfl, _⟩ := step_act hst; exact one _ _ ha

end Link
end KP2P

import Verif.Model.Wiring
import Mathlib.Data.List.Basic
/-!
# C86-C89: the gate of the node
-/

namespace KP2P
open KP2P.Wiring

private theorem run_app (s : Wiring.State) (a b : List Wiring.Label) :
    Wiring.run s (a ++ b) = (Wiring.run s a).bind fun s' => Wiring.run s' b := by
  induction a generalizing s with
  | nil => rfl
  | cons l a ih =>
    simp only [List.cons_append, Wiring.run]
    cases Wiring.step s l with
    | none => rfl
    | some s' => exact ih s'

private theorem w_ind {P : Wiring.State → Prop} (hstep : ∀ s l s', P s → Wiring.step s l = some s' → P s') :
    ∀ (ls : List Wiring.Label) (s s' : Wiring.State), P s → Wiring.run s ls = some s' → P s' := by
  intro ls
  induction ls with
  | nil => intro s s' h hr; cases hr; exact h
  | cons l ls ih =>
    intro s s' h hr
    simp only [Wiring.run] at hr
    split at hr
    · rename_i s1 h1; exact ih s1 s' (hstep s l s1 h h1) hr
    · cases hr

/-- Queries for which the manager has the question. -/
private def awaiting (qs : List (Nat × Stage)) : Nat := qs.countP fun x => x.2 == .awaitAddr

private def Inv (s : Wiring.State) : Prop :=
  (awaiting s.queries = match s.manager with | .replyQuery _ => 1 | _ => 0) ∧
  (∀ q, s.manager = .replyQuery q → (q, Stage.awaitAddr) ∈ s.queries) ∧
  (s.manager = .replyHandler ↔ ∃ e, s.handler = .awaitAddr e)

private theorem awaiting_erase (qs : List (Nat × Stage)) (q : Nat) (st : Stage) (h : (q, st) ∈ qs) :
    awaiting (qs.erase (q, st)) + (if st = .awaitAddr then 1 else 0) = awaiting qs := by
  induction qs with
  | nil => cases h
  | cons x qs ih =>
    by_cases hx : x = (q, st)
    · subst hx
      simp only [List.erase_cons_head, awaiting, List.countP_cons]
      cases st <;> simp
    · have hm : (q, st) ∈ qs := by
        rcases List.mem_cons.1 h with h | h
        · exact absurd h.symm hx
        · exact h
      have := ih hm
      rw [List.erase_cons_tail (by simpa using hx)]
      simp only [awaiting, List.countP_cons] at this ⊢
      omega

private theorem mem_erase_other (qs : List (Nat × Stage)) (x y : Nat × Stage) (h : x ∈ qs) (hne : x ≠ y) :
    x ∈ qs.erase y := (List.mem_erase_of_ne hne).2 h

private theorem inv_step (s : Wiring.State) (l : Wiring.Label) (s' : Wiring.State) (h : Inv s)
    (hs : Wiring.step s l = some s') : Inv s' := by
  obtain ⟨h1, h2, h3⟩ := h
  unfold Wiring.step at hs
  split at hs
  · cases hs
  cases l <;> dsimp only at hs
  case setProvider => cases hs; exact ⟨h1, h2, h3⟩
  case startHandler =>
    split at hs
    · rename_i ho
      split at hs
      · cases hs
        refine ⟨h1, h2, ?_⟩
        simp [ho] at h3 ⊢; exact h3
      · cases hs; exact ⟨h1, h2, h3⟩
    · cases hs
  case startManager =>
    split at hs
    · rename_i ho
      cases hs
      simp only [ho] at h1 h3
      refine ⟨h1, by simp, ?_⟩
      simpa using h3
    · cases hs
  case queryAddr q =>
    cases hs
    refine ⟨?_, fun q' hq => List.mem_append_left _ (h2 q' hq), h3⟩
    simpa [awaiting] using h1
  case queryPeer q =>
    split at hs
    · cases hs
      refine ⟨?_, fun q' hq => List.mem_append_left _ (h2 q' hq), h3⟩
      simpa [awaiting] using h1
    · cases hs; exact ⟨h1, h2, h3⟩
  case report e => cases hs; exact ⟨h1, h2, h3⟩
  case managerTakes q =>
    split at hs
    · rename_i hc
      cases hs
      have := awaiting_erase s.queries q .askAddr hc.2
      simp only [hc.1] at h1 h3
      refine ⟨?_, ?_, ?_⟩
      · simp [awaiting] at this h1 ⊢
        exact fun a b hab => h1 a b (List.mem_of_mem_erase hab)
      · intro q' hq; cases hq; exact List.mem_cons_self ..
      · simpa using h3
    · cases hs
  case managerTakesHandler =>
    split at hs
    · rename_i hm hh
      cases hs
      simp only [hm] at h1
      exact ⟨h1, by simp, by simp⟩
    · cases hs
  case managerReplies known =>
    split at hs
    · rename_i q hm
      simp only [hm] at h1 h3
      split at hs
      · rename_i hin
        have := awaiting_erase s.queries q .awaitAddr hin
        split at hs
        · cases hs
          refine ⟨?_, by simp, by simpa using h3⟩
          simp only [awaiting, List.countP_cons] at this h1 ⊢
          simp at this ⊢
          intro a b hab
          have h0 : List.countP (fun x => x.2 == Stage.awaitAddr) (s.queries.erase (q, Stage.awaitAddr)) = 0 := by omega
          rw [List.countP_eq_zero] at h0
          simpa using h0 (a, b) hab
        · cases hs
          refine ⟨?_, by simp, by simpa using h3⟩
          simp only [if_true] at this
          dsimp only
          omega
      · cases hs
    · rename_i hm
      split at hs
      · rename_i e hh
        cases hs
        simp only [hm] at h1
        exact ⟨h1, by simp, by simp⟩
      · cases hs
    · cases hs
  case handlerTakes e =>
    split at hs
    · rename_i hc
      cases hs
      refine ⟨h1, h2, ?_⟩
      rw [hc.1] at h3
      simpa using h3
    · cases hs
  case handlerAnswers q =>
    split at hs
    · rename_i hc
      cases hs
      have := awaiting_erase s.queries q .atHandler hc.2
      refine ⟨?_, fun q' hq => mem_erase_other _ _ _ (h2 q' hq) (by simp), h3⟩
      simp at this
      dsimp only
      rw [this]; exact h1
    · cases hs

private theorem inv_reach {s : Wiring.State} (h : Wiring.Reachable s) : Inv s := by
  obtain ⟨ls, hr⟩ := h
  exact w_ind inv_step ls _ s ⟨rfl, by simp [Wiring.init], by simp [Wiring.init]⟩ hr

/-! ### C86: the gate answers -/

private def stageWork : Stage → Nat
  | .askAddr => 3
  | .awaitAddr => 2
  | .atHandler => 1

private def work (s : Wiring.State) : Nat :=
  (s.queries.map fun x => stageWork x.2).sum + 3 * s.errors.length +
    (match s.handler with | .askAddr _ => 2 | .awaitAddr _ => 1 | _ => 0)

private theorem sum_erase (qs : List (Nat × Stage)) (x : Nat × Stage) (h : x ∈ qs) :
    ((qs.erase x).map fun x => stageWork x.2).sum + stageWork x.2 = (qs.map fun x => stageWork x.2).sum := by
  induction qs with
  | nil => cases h
  | cons y qs ih =>
    by_cases hx : y = x
    · subst hx; simp; omega
    · have hm : x ∈ qs := by
        rcases List.mem_cons.1 h with h | h
        · exact absurd h.symm hx
        · exact h
      have := ih hm
      rw [List.erase_cons_tail (by simpa using hx)]
      simp only [List.map_cons, List.sum_cons]
      omega

private theorem work_step (s s' : Wiring.State) (l : Wiring.Label) (hi : Wiring.Internal l = true)
    (hs : Wiring.step s l = some s') : work s' < work s := by
  unfold Wiring.step at hs
  split at hs
  · cases hs
  cases l <;> simp only [Wiring.Internal] at hi <;> first | (exact absurd hi (by decide)) | skip
  all_goals dsimp only at hs
  case managerTakes q =>
    split at hs
    · rename_i hc
      cases hs
      have := sum_erase _ _ hc.2
      simp only [work, List.map_cons, List.sum_cons, stageWork] at this ⊢
      omega
    · cases hs
  case managerTakesHandler =>
    split at hs
    · rename_i hm hh
      cases hs
      simp only [work, hh]; omega
    · cases hs
  case managerReplies known =>
    split at hs
    · split at hs
      · rename_i hin
        have := sum_erase _ _ hin
        split at hs
        · cases hs
          simp only [work, List.map_cons, List.sum_cons, stageWork] at this ⊢
          omega
        · cases hs
          simp only [work, stageWork] at this ⊢
          omega
      · cases hs
    · split at hs
      · rename_i e hh
        cases hs
        simp only [work, hh]; omega
      · cases hs
    · cases hs
  case handlerTakes e =>
    split at hs
    · rename_i hc
      cases hs
      have hl : 0 < s.errors.length := List.length_pos_of_mem hc.2
      simp only [work, hc.1, List.length_erase_of_mem hc.2]
      omega
    · cases hs
  case handlerAnswers q =>
    split at hs
    · rename_i hc
      cases hs
      have := sum_erase _ _ hc.2
      simp only [work, stageWork] at this ⊢
      omega
    · cases hs

/-- Both loops run and nothing crashed. -/
def Up (s : Wiring.State) : Prop := s.handler ≠ .off ∧ s.manager ≠ .off ∧ s.crashed = false

private theorem up_step (s s' : Wiring.State) (l : Wiring.Label) (hu : Up s) (hi : Wiring.Internal l = true)
    (hs : Wiring.step s l = some s') : Up s' := by
  obtain ⟨u1, u2, u3⟩ := hu
  unfold Wiring.step at hs
  split at hs
  · cases hs
  cases l <;> simp only [Wiring.Internal] at hi <;> first | (exact absurd hi (by decide)) | skip
  all_goals
    dsimp only at hs
    repeat' split at hs
    all_goals first
      | cases hs
      | skip
    all_goals first
      | exact ⟨u1, u2, u3⟩
      | exact ⟨u1, by simp, u3⟩
      | exact ⟨by simp, u2, u3⟩
      | exact ⟨by simp, by simp, u3⟩

private theorem enabled (s : Wiring.State) (hinv : Inv s) (hu : Up s) (hp : s.queries ≠ [] ∨ s.errors ≠ []) :
    ∃ l s', Wiring.Internal l = true ∧ Wiring.step s l = some s' := by
  obtain ⟨h1, h2, h3⟩ := hinv
  obtain ⟨u1, u2, u3⟩ := hu
  cases hm : s.manager with
  | off => exact absurd hm u2
  | replyQuery q => exact ⟨.managerReplies true, _, rfl, by simp [Wiring.step, u3, hm, h2 q hm]; rfl⟩
  | replyHandler =>
    obtain ⟨e, he⟩ := h3.1 hm
    exact ⟨.managerReplies true, _, rfl, by simp [Wiring.step, u3, hm, he]; rfl⟩
  | serving =>
    cases hh : s.handler with
    | off => exact absurd hh u1
    | askAddr e => exact ⟨.managerTakesHandler, _, rfl, by simp [Wiring.step, u3, hm, hh]; rfl⟩
    | awaitAddr e =>
      have := h3.2 ⟨e, hh⟩
      rw [hm] at this; cases this
    | idle =>
      by_cases hq : s.queries = []
      · have he : s.errors ≠ [] := hp.resolve_left (by simp [hq])
        obtain ⟨e, es, hes⟩ := List.exists_cons_of_ne_nil he
        exact ⟨.handlerTakes e, _, rfl, by simp [Wiring.step, u3, hh, hes]; rfl⟩
      · obtain ⟨⟨q, st⟩, qs, hqs⟩ := List.exists_cons_of_ne_nil hq
        cases st with
        | askAddr => exact ⟨.managerTakes q, _, rfl, by simp [Wiring.step, u3, hm, hqs]; rfl⟩
        | atHandler => exact ⟨.handlerAnswers q, _, rfl, by simp [Wiring.step, u3, hh, hqs]; rfl⟩
        | awaitAddr =>
          simp only [hm, hqs, awaiting, List.countP_cons] at h1
          simp at h1

/-- Every query is pending or answered, every error pending, being handled or handled. -/
private def Kept (q : Nat) (s : Wiring.State) : Prop := q ∈ s.queries.map Prod.fst ∨ q ∈ s.answered

private theorem mem_fst_erase (qs : List (Nat × Stage)) (q p : Nat) (st : Stage) (h : q ∈ qs.map Prod.fst) :
    q ∈ (qs.erase (p, st)).map Prod.fst ∨ q = p := by
  obtain ⟨⟨a, b⟩, hm, rfl⟩ := List.mem_map.1 h
  by_cases hx : (a, b) = (p, st)
  · cases hx; exact Or.inr rfl
  · exact Or.inl (List.mem_map.2 ⟨(a, b), mem_erase_other _ _ _ hm hx, rfl⟩)

private theorem kept_step (q : Nat) (s : Wiring.State) (l : Wiring.Label) (s' : Wiring.State) (h : Kept q s)
    (hs : Wiring.step s l = some s') : Kept q s' := by
  unfold Kept at *
  unfold Wiring.step at hs
  split at hs
  · cases hs
  have happ : ∀ x : Nat × Stage, (q ∈ s.queries.map Prod.fst ∨ q ∈ s.answered) →
      (q ∈ (s.queries ++ [x]).map Prod.fst ∨ q ∈ s.answered) := by
    intro x h
    rcases h with h | h
    · exact Or.inl (by rw [List.map_append]; exact List.mem_append_left _ h)
    · exact Or.inr h
  have hmove : ∀ (p : Nat) (st st' : Stage), (q ∈ s.queries.map Prod.fst ∨ q ∈ s.answered) →
      (q ∈ (((p, st') :: s.queries.erase (p, st)).map Prod.fst) ∨ q ∈ s.answered) := by
    intro p st st' h
    rcases h with h | h
    · rcases mem_fst_erase _ q p st h with h | h
      · exact Or.inl (List.mem_cons_of_mem _ h)
      · subst h; exact Or.inl (List.mem_cons_self ..)
    · exact Or.inr h
  have hdone : ∀ (p : Nat) (st : Stage), (q ∈ s.queries.map Prod.fst ∨ q ∈ s.answered) →
      (q ∈ ((s.queries.erase (p, st)).map Prod.fst) ∨ q ∈ p :: s.answered) := by
    intro p st h
    rcases h with h | h
    · rcases mem_fst_erase _ q p st h with h | h
      · exact Or.inl h
      · subst h; exact Or.inr (List.mem_cons_self ..)
    · exact Or.inr (List.mem_cons_of_mem _ h)
  cases l <;> dsimp only at hs <;> (repeat' split at hs) <;> first | cases hs | skip
  all_goals first
    | exact h
    | exact happ _ h
    | exact hmove _ _ _ h
    | exact hdone _ _ h

/-- A query stays pending until it is answered. -/
theorem wiring_kept {a b : Wiring.State} {l : Wiring.Label} (h : Wiring.step a l = some b) (q : Nat)
    (hq : q ∈ a.queries.map Prod.fst ∨ q ∈ a.answered) : q ∈ b.queries.map Prod.fst ∨ q ∈ b.answered :=
  kept_step q a l b hq h

private def KeptErr (e : Nat) (s : Wiring.State) : Prop :=
  e ∈ s.errors ∨ s.handler = .askAddr e ∨ s.handler = .awaitAddr e ∨ e ∈ s.handledErrors

private theorem keptErr_step (e : Nat) (s : Wiring.State) (l : Wiring.Label) (s' : Wiring.State) (h : KeptErr e s)
    (hs : Wiring.step s l = some s') : KeptErr e s' := by
  unfold KeptErr at *
  unfold Wiring.step at hs
  split at hs
  · cases hs
  cases l <;> dsimp only at hs
  case report e' =>
    cases hs
    rcases h with h | h
    · exact Or.inl (List.mem_append_left _ h)
    · exact Or.inr h
  case startHandler =>
    split at hs
    · rename_i ho
      split at hs
      · cases hs
        rw [ho] at h
        simp only [reduceCtorEq, false_or] at h ⊢
        exact h
      · cases hs; exact h
    · cases hs
  case managerTakesHandler =>
    split at hs
    · rename_i e' hm hh
      cases hs
      rw [hh] at h
      simp only [reduceCtorEq, false_or, Handler.askAddr.injEq, Handler.awaitAddr.injEq] at h ⊢
      exact h
    · cases hs
  case managerReplies known =>
    split at hs
    · repeat' split at hs
      all_goals first | cases hs | skip
      all_goals exact h
    · split at hs
      · rename_i e' hh
        cases hs
        rw [hh] at h
        simp only [reduceCtorEq, false_or, Handler.awaitAddr.injEq, List.mem_cons] at h ⊢
        rcases h with h | h | h
        · exact Or.inl h
        · exact Or.inr (Or.inl h.symm)
        · exact Or.inr (Or.inr h)
      · cases hs
    · cases hs
  case handlerTakes e' =>
    split at hs
    · rename_i hc
      cases hs
      rw [hc.1] at h
      simp only [reduceCtorEq, false_or, Handler.askAddr.injEq] at h ⊢
      rcases h with h | h
      · by_cases he : e = e'
        · exact Or.inr (Or.inl he.symm)
        · exact Or.inl ((List.mem_erase_of_ne he).2 h)
      · exact Or.inr (Or.inr h)
    · cases hs
  all_goals
    (repeat' split at hs) <;> first | cases hs | skip
  all_goals exact h

/-- C86. While both loops run, the gate always answers: whatever state has been reached, the loops come to rest after a
bounded number of steps, in whatever order they take them, and then every query pending at the start has been answered and
every reported error handled. -/
theorem C86_gate_answers (s : Wiring.State) (h : Wiring.Reachable s) (hu : Up s) :
    (∃ n, ∀ ls s', (∀ l ∈ ls, Wiring.Internal l = true) → Wiring.run s ls = some s' → ls.length ≤ n) ∧
    ∀ ls s', (∀ l ∈ ls, Wiring.Internal l = true) → Wiring.run s ls = some s' →
      (∀ l, Wiring.Internal l = true → Wiring.step s' l = none) →
      (∀ q ∈ s.queries.map Prod.fst, q ∈ s'.answered) ∧ (∀ e ∈ s.errors, e ∈ s'.handledErrors) ∧
      s'.queries = [] ∧ s'.errors = [] := by
  constructor
  · refine ⟨work s, ?_⟩
    intro ls
    induction ls generalizing s with
    | nil => intro s' _ _; exact Nat.zero_le _
    | cons l ls ih =>
      intro s' hin hr
      have hl := hin l (List.mem_cons_self ..)
      simp only [Wiring.run] at hr
      split at hr
      · rename_i s1 h1
        have hw := work_step s s1 l hl h1
        have hreach : Wiring.Reachable s1 := by
          obtain ⟨ls0, h0⟩ := h
          exact ⟨ls0 ++ [l], by rw [run_app, h0]; simp [Wiring.run, h1]⟩
        have := ih s1 hreach (up_step s s1 l hu hl h1) s' (fun l' hl' => hin l' (List.mem_cons_of_mem _ hl')) hr
        simp only [List.length_cons]
        omega
      · cases hr
  · intro ls s' hin hr hrest
    have hreach : Wiring.Reachable s' := by
      obtain ⟨ls0, h0⟩ := h
      exact ⟨ls0 ++ ls, by rw [run_app, h0]; exact hr⟩
    have hu' : Up s' := by
      clear hreach hrest h
      induction ls generalizing s with
      | nil => cases hr; exact hu
      | cons l ls ih =>
        simp only [Wiring.run] at hr
        split at hr
        · rename_i s1 h1
          exact ih s1 (up_step s s1 l hu (hin l (List.mem_cons_self ..)) h1)
            (fun l' hl' => hin l' (List.mem_cons_of_mem _ hl')) hr
        · cases hr
    have hnone : s'.queries = [] ∧ s'.errors = [] := by
      by_contra hne
      have : s'.queries ≠ [] ∨ s'.errors ≠ [] := by
        by_cases hq : s'.queries = []
        · exact Or.inr fun he => hne ⟨hq, he⟩
        · exact Or.inl hq
      obtain ⟨l, s2, hl, h2⟩ := enabled s' (inv_reach hreach) hu' this
      rw [hrest l hl] at h2
      cases h2
    refine ⟨?_, ?_, hnone⟩
    · intro q hq
      have := w_ind (kept_step q) ls s s' (Or.inl hq) hr
      rcases this with h | h
      · rw [hnone.1] at h; cases h
      · exact h
    · intro e he
      have := w_ind (keptErr_step e) ls s s' (Or.inl he) hr
      rcases this with h | h | h | h
      · rw [hnone.2] at h; cases h
      · exfalso
        obtain ⟨_, _, h3⟩ := inv_reach hreach
        cases hm : s'.manager with
        | off => exact hu'.2.1 hm
        | serving =>
          have := hrest .managerTakesHandler rfl
          simp [Wiring.step, hu'.2.2, hm, h] at this
        | replyQuery q =>
          have := (inv_reach hreach).2.1 q hm
          rw [hnone.1] at this; cases this
        | replyHandler =>
          obtain ⟨e', he'⟩ := h3.1 hm
          rw [h] at he'; cases he'
      · exfalso
        obtain ⟨_, _, h3⟩ := inv_reach hreach
        have hm := h3.2 ⟨e, h⟩
        have := hrest (.managerReplies true) rfl
        simp [Wiring.step, hu'.2.2, hm, h] at this
      · exact h

/- A running node with two queries and an error pending. -/
private def upLabels : List Wiring.Label :=
  [.setProvider, .startHandler, .startManager, .queryAddr 1, .queryPeer 2, .report 3, .handlerTakes 3]
example : (Wiring.run Wiring.init upLabels).map (fun s => (s.queries, s.handler, s.manager)) =
    some ([(1, .atHandler), (2, .askAddr)], .askAddr 3, .serving) := by decide +kernel
example : (Wiring.run Wiring.init (upLabels ++ [.managerTakes 2, .managerReplies true, .managerTakesHandler,
    .managerReplies true, .handlerAnswers 2, .handlerAnswers 1])).map (fun s => (s.queries, s.answered, s.handledErrors)) =
    some ([], [1, 2], [3]) := by decide +kernel

/-! ### C87: the gate depends on the connection manager -/

/-- The claim: once the error handler runs, a query about an address is answered, whether or not the connection manager
serves. -/
def GateIndependent : Prop :=
  ∀ s, Wiring.Reachable s → s.crashed = false → s.handler ≠ .off → ∀ q, (q, Stage.atHandler) ∈ s.queries →
    q ∉ s.answered → ∃ ls s', (∀ l ∈ ls, Wiring.Internal l = true) ∧ Wiring.run s ls = some s' ∧ q ∈ s'.answered

/-- C87 where it fails, for all executions: if the manager does not serve (C36) and the error handler has taken up an error,
then no query is answered any more, neither about peers nor about addresses, and no further error is handled. -/
theorem C87_silent_partial (s s' : Wiring.State) (e : Nat) (hh : s.handler = .askAddr e) (hm : s.manager = .off)
    (ls : List Wiring.Label) (hno : Wiring.Label.startManager ∉ ls) (hr : Wiring.run s ls = some s') :
    s'.answered = s.answered ∧ s'.handledErrors = s.handledErrors ∧ s'.handler = .askAddr e := by
  induction ls generalizing s with
  | nil => cases hr; exact ⟨rfl, rfl, hh⟩
  | cons l ls ih =>
    simp only [Wiring.run] at hr
    split at hr
    · rename_i s1 h1
      have hno' : Wiring.Label.startManager ∉ ls := fun h => hno (List.mem_cons_of_mem _ h)
      have key : s1.handler = .askAddr e ∧ s1.manager = .off ∧ s1.answered = s.answered ∧
          s1.handledErrors = s.handledErrors := by
        unfold Wiring.step at h1
        split at h1
        · cases h1
        cases l <;> simp only [hh, hm] at h1
        case startManager => exact absurd (List.mem_cons_self ..) hno
        all_goals
          (repeat' split at h1) <;> first | cases h1 | skip
        all_goals first
          | exact ⟨rfl, rfl, rfl, rfl⟩
          | exact ⟨hh, hm, rfl, rfl⟩
          | (rename_i hc; cases hc.1)
      obtain ⟨a, b, c⟩ := ih s1 key.1 key.2.1 hno' hr
      exact ⟨a.trans key.2.2.1, b.trans key.2.2.2, c⟩
    · cases hr

/-- C87 refuted: one reported error while the manager does not serve closes the gate for good. -/
theorem C87_independent_refuted : ¬ GateIndependent := by
  intro h
  let s : Wiring.State := ⟨true, .askAddr 5, .off, [(1, .atHandler)], [], [], [], false⟩
  have hr : Wiring.run Wiring.init [.setProvider, .startHandler, .report 5, .handlerTakes 5, .queryAddr 1] = some s := by
    decide +kernel
  obtain ⟨ls, s', hin, hrun, hq⟩ := h s ⟨_, hr⟩ rfl (by decide) 1 (by decide) (by decide)
  have := (C87_silent_partial s s' 5 rfl rfl ls (fun hx => by have := hin _ hx; cases this) hrun).1
  rw [this] at hq
  cases hq

/-- C87 as far as it holds: while the error handler is not handling an error, queries about addresses are answered without
the manager. -/
theorem C87_idle_partial (s : Wiring.State) (hh : s.handler = .idle) (hc : s.crashed = false) (q : Nat)
    (hq : (q, Stage.atHandler) ∈ s.queries) :
    ∃ s', Wiring.run s [.handlerAnswers q] = some s' ∧ q ∈ s'.answered := by
  refine ⟨{ s with queries := s.queries.erase (q, .atHandler), answered := q :: s.answered }, ?_, List.mem_cons_self ..⟩
  simp [Wiring.run, Wiring.step, hc, hh, hq]

/-- C87. What the manager's answer does: a query about a peer whose address is not known is answered at once, without the error
handler; one whose address is known goes on to the error handler and is not answered yet. -/
theorem C87_address_partial (s : Wiring.State) (hc : s.crashed = false) (q : Nat) (hm : s.manager = .replyQuery q)
    (hq : (q, Stage.awaitAddr) ∈ s.queries) :
    (∃ s', Wiring.step s (.managerReplies false) = some s' ∧ s'.answered = q :: s.answered ∧ s'.manager = .serving) ∧
    ∃ s', Wiring.step s (.managerReplies true) = some s' ∧ s'.answered = s.answered ∧ (q, Stage.atHandler) ∈ s'.queries ∧
      s'.manager = .serving := by
  constructor
  · exact ⟨{ s with manager := .serving, queries := s.queries.erase (q, .awaitAddr), answered := q :: s.answered },
      by simp [Wiring.step, hc, hm, hq], rfl, rfl⟩
  · exact ⟨{ s with manager := .serving, queries := (q, .atHandler) :: s.queries.erase (q, .awaitAddr) },
      by simp [Wiring.step, hc, hm, hq], rfl, List.mem_cons_self .., rfl⟩

/-! ### C88: closed until started -/

/-- C88. Until the error handler is started no query about an address is answered: no connection can be accepted, none can
be dialled. -/
theorem C88_closed_until_start (ls : List Wiring.Label) (s : Wiring.State) (hno : Wiring.Label.startHandler ∉ ls)
    (hr : Wiring.run Wiring.init ls = some s) :
    (∀ q, Wiring.Label.queryAddr q ∈ ls → (q, Stage.atHandler) ∈ s.queries) ∧
    (Wiring.Label.startManager ∉ ls → s.answered = []) := by
  have key : ∀ (ls : List Wiring.Label) (s0 s : Wiring.State), s0.handler = .off → Wiring.Label.startHandler ∉ ls →
      Wiring.run s0 ls = some s →
      (∀ q, (Wiring.Label.queryAddr q ∈ ls ∨ (q, Stage.atHandler) ∈ s0.queries) → (q, Stage.atHandler) ∈ s.queries) ∧
      (s0.manager = .off → Wiring.Label.startManager ∉ ls → s.answered = s0.answered) := by
    intro ls
    induction ls with
    | nil =>
      intro s0 s _ _ hr
      cases hr
      exact ⟨fun q h => h.elim (fun h => by cases h) id, fun _ _ => rfl⟩
    | cons l ls ih =>
      intro s0 s hoff hno hr
      simp only [Wiring.run] at hr
      split at hr
      · rename_i s1 h1
        have hno' : Wiring.Label.startHandler ∉ ls := fun h => hno (List.mem_cons_of_mem _ h)
        have hstep : s1.handler = .off ∧
            (∀ q, (l = .queryAddr q ∨ (q, Stage.atHandler) ∈ s0.queries) → (q, Stage.atHandler) ∈ s1.queries) ∧
            (s0.manager = .off → l ≠ .startManager → s1.manager = .off ∧ s1.answered = s0.answered) := by
          unfold Wiring.step at h1
          split at h1
          · cases h1
          cases l <;> dsimp only at h1
          case startHandler => exact absurd (List.mem_cons_self ..) hno
          case setProvider =>
            cases h1
            exact ⟨hoff, fun q h => h.elim (fun h => by cases h) id, fun h _ => ⟨h, rfl⟩⟩
          case startManager =>
            split at h1
            · cases h1
              exact ⟨hoff, fun q h => h.elim (fun h => by cases h) id, fun _ h => absurd rfl h⟩
            · cases h1
          case queryAddr p =>
            cases h1
            refine ⟨hoff, fun q h => ?_, fun h _ => ⟨h, rfl⟩⟩
            rcases h with h | h
            · cases h; exact List.mem_append_right _ (List.mem_singleton_self _)
            · exact List.mem_append_left _ h
          case queryPeer p =>
            split at h1
            · cases h1
              exact ⟨hoff, fun q h => h.elim (fun h => by cases h) (List.mem_append_left _), fun h _ => ⟨h, rfl⟩⟩
            · cases h1
              exact ⟨hoff, fun q h => h.elim (fun h => by cases h) id, fun h _ => ⟨h, rfl⟩⟩
          case report e =>
            cases h1
            exact ⟨hoff, fun q h => h.elim (fun h => by cases h) id, fun h _ => ⟨h, rfl⟩⟩
          case managerTakes p =>
            split at h1
            · rename_i hc
              cases h1
              refine ⟨hoff, fun q h => h.elim (fun h => by cases h) fun h => ?_, fun h => ?_⟩
              · exact List.mem_cons_of_mem _ (mem_erase_other _ _ _ h (by simp))
              · rw [hc.1] at h; cases h
            · cases h1
          case managerTakesHandler =>
            rw [hoff] at h1
            split at h1
            · rename_i hx; cases hx
            · cases h1
          case managerReplies known =>
            split at h1
            · rename_i p hm
              have hman : s0.manager = .off → False := fun h => by rw [hm] at h; cases h
              split at h1
              · split at h1
                · cases h1
                  exact ⟨hoff, fun q h => h.elim (fun h => by cases h) fun h =>
                    List.mem_cons_of_mem _ (mem_erase_other _ _ _ h (by simp)), fun h => (hman h).elim⟩
                · cases h1
                  exact ⟨hoff, fun q h => h.elim (fun h => by cases h) fun h =>
                    mem_erase_other _ _ _ h (by simp), fun h => (hman h).elim⟩
              · cases h1
            · rw [hoff] at h1; cases h1
            · cases h1
          case handlerTakes e =>
            split at h1
            · rename_i hc; rw [hoff] at hc; cases hc.1
            · cases h1
          case handlerAnswers p =>
            split at h1
            · rename_i hc; rw [hoff] at hc; cases hc.1
            · cases h1
        obtain ⟨a, b⟩ := ih s1 s hstep.1 hno' hr
        refine ⟨fun q h => a q ?_, fun h1 h2 => ?_⟩
        · rcases h with h | h
          · rcases List.mem_cons.1 h with h | h
            · exact Or.inr (hstep.2.1 q (Or.inl h.symm))
            · exact Or.inl h
          · exact Or.inr (hstep.2.1 q (Or.inr h))
        · have hl : l ≠ .startManager := fun h => h2 (by rw [h]; exact List.mem_cons_self ..)
          obtain ⟨c, d⟩ := hstep.2.2 h1 hl
          rw [b c (fun h => h2 (List.mem_cons_of_mem _ h)), d]
      · cases hr
  obtain ⟨a, b⟩ := key ls _ s rfl hno hr
  exact ⟨fun q h => a q (Or.inl h), fun h => b rfl h⟩

/-- C88, the other direction: when the node is constructed, starting the error handler makes it answer the queries about addresses
that have been waiting. -/
theorem C88_opens (ls : List Wiring.Label) (s : Wiring.State) (hno : Wiring.Label.startHandler ∉ ls) (hr : Wiring.run Wiring.init ls = some s)
    (hp : s.provider = true) (hc : s.crashed = false) (q : Nat) (hq : Wiring.Label.queryAddr q ∈ ls) :
    ∃ s', Wiring.run s [.startHandler, .handlerAnswers q] = some s' ∧ q ∈ s'.answered := by
  have hw := (C88_closed_until_start ls s hno hr).1 q hq
  have hoff : s.handler = .off := by
    suffices h : ∀ (ls : List Wiring.Label) (s0 s : Wiring.State), s0.handler = .off → Wiring.Label.startHandler ∉ ls →
        Wiring.run s0 ls = some s → s.handler = .off from h ls _ s rfl hno hr
    intro ls
    induction ls with
    | nil => intro s0 s h0 _ hr; cases hr; exact h0
    | cons l ls ih =>
      intro s0 s h0 hno hr
      simp only [Wiring.run] at hr
      split at hr
      · rename_i s1 h1
        refine ih s1 s ?_ (fun h => hno (List.mem_cons_of_mem _ h)) hr
        have hl : l ≠ .startHandler := fun h => hno (by rw [h]; exact List.mem_cons_self ..)
        unfold Wiring.step at h1
        split at h1
        · cases h1
        · cases l <;> simp only [h0] at h1 <;> (repeat' split at h1)
          all_goals first
            | exact absurd rfl hl
            | (simp only [Option.some.injEq] at h1; subst h1; first | exact h0 | rfl)
            | (rename_i hc; cases hc.1)
            | (rename_i hc; cases hc)
            | cases h1
      · cases hr
  exact ⟨{ s with handler := .idle, queries := s.queries.erase (q, .atHandler), answered := q :: s.answered },
    by simp [Wiring.run, Wiring.step, hc, hoff, hp, hw], List.mem_cons_self ..⟩

/-- Such a start: the address has been waiting since before the construction was over. -/
example : (Wiring.run Wiring.init [.queryAddr 4, .setProvider, .startHandler, .handlerAnswers 4]).map (fun s => s.answered) = some [4] := by
  decide +kernel

example : (Wiring.run Wiring.init [.queryAddr 4, .setProvider, .queryPeer 5]).map (fun s => (s.queries, s.answered)) =
    some ([(4, .atHandler), (5, .askAddr)], []) := by decide +kernel

/-! ### C89: queries during construction -/

/-- The claim: a query about a peer never crashes the node. -/
def PeerQueriesSafe : Prop := ∀ s, Wiring.Reachable s → s.crashed = false

/-- C89 refuted: libp2p has the gater before the gater has its address provider; a peer query in between dereferences nil. -/
theorem C89_peer_query_refuted : ¬ PeerQueriesSafe := by
  intro h
  have := h { Wiring.init with crashed := true } ⟨[.queryPeer 1], rfl⟩
  cases this

/-- C89 as far as it holds: after construction, no query crashes. -/
theorem C89_after_construction_partial (s s' : Wiring.State) (hp : s.provider = true) (hc : s.crashed = false)
    (ls : List Wiring.Label) (hr : Wiring.run s ls = some s') : s'.crashed = false := by
  have := w_ind (P := fun s => s.provider = true ∧ s.crashed = false) (fun s l s' h hs => by
    obtain ⟨h1, h2⟩ := h
    unfold Wiring.step at hs
    split at hs
    · cases hs
    cases l <;> simp only [h1] at hs <;> (repeat' split at hs) <;> first | cases hs | skip
    all_goals first
      | exact ⟨h1, h2⟩
      | exact ⟨rfl, h2⟩) ls s s' ⟨hp, hc⟩ hr
  exact this.2

example : ∃ s, Wiring.run Wiring.init [.setProvider] = some s ∧ s.provider = true ∧ s.crashed = false :=
  ⟨_, rfl, rfl, rfl⟩

end KP2P

import Verif.Props.TxApply
import Verif.Proof.Fair
import Verif.Spec.TxApplyFair
/-!
# C96: every call of `ApplyTransaction` returns
-/

namespace KP2P
open KP2P.TxA KP2P.Spec.TxA

private theorem sum_set_add {α : Type} {l : List α} {i : Nat} {a a' : α} (h : l[i]? = some a) (f : α → Nat) :
    ((l.set i a').map f).sum + f a = (l.map f).sum + f a' := by
  have h1 := ((perm_erase h).map f).sum_nat
  have h2 := ((set_perm (b := a') h).map f).sum_nat
  simp only [List.map_cons, List.sum_cons] at h1 h2
  omega

private theorem sum_erase_add {α : Type} {l : List α} {i : Nat} {a : α} (h : l[i]? = some a) (f : α → Nat) :
    ((l.eraseIdx i).map f).sum + f a = (l.map f).sum := by
  have h1 := ((perm_erase h).map f).sum_nat
  simp only [List.map_cons, List.sum_cons] at h1
  omega

private def qw (r : Nat) (x : Nat × Tx) : Nat := if x.1 = r then 3 else 0

private def jw (r : Nat) (j : Job) : Nat :=
  if j.req = r then (match j.stage with | .admitted => 2 | .inRPC => 1) else 0

/-- The steps that call `r` still needs before it is answered. -/
private def left (r : Nat) (s : State) : Nat := (s.queue.map (qw r)).sum + (s.jobs.map (jw r)).sum

/-- Every caller is still waiting or has returned. -/
private def CallersInv (s : State) : Prop :=
  (∀ r, r < s.nextReq → r ∈ s.waiting ∨ ∃ e, Obs.returned r e ∈ s.log) ∧ ∀ r ∈ s.waiting, r < s.nextReq

private theorem callers_step {s s' : State} (h : CallersInv s) (he : Eff s s') : CallersInv s' := by
  obtain ⟨h1, h2⟩ := h
  cases he with
  | call tx =>
    refine ⟨fun r hr => ?_, fun r hr => ?_⟩
    · by_cases hrn : r = s.nextReq
      · subst hrn; exact Or.inl (List.mem_cons_self ..)
      · have hlt : r < s.nextReq := by dsimp only at hr; omega
        rcases h1 r hlt with h | ⟨e, h⟩
        · exact Or.inl (List.mem_cons_of_mem _ h)
        · exact Or.inr ⟨e, List.mem_cons_of_mem _ h⟩
    · dsimp only at hr ⊢
      rcases List.mem_cons.1 hr with rfl | hr
      · omega
      · have := h2 r hr; omega
  | crash txs h => exact ⟨h1, h2⟩
  | admit i r tx c hq hc => exact ⟨h1, h2⟩
  | hit i r tx c n hq hc hn => exact ⟨fun r hr => (h1 r hr).imp id fun ⟨e, h⟩ => ⟨e, List.mem_cons_of_mem _ h⟩, h2⟩
  | submit i r tx hj => exact ⟨fun r hr => (h1 r hr).imp id fun ⟨e, h⟩ => ⟨e, List.mem_cons_of_mem _ h⟩, h2⟩
  | rpcReturn i r tx e hj =>
    exact ⟨fun r hr => (h1 r hr).imp id fun ⟨e, h⟩ => ⟨e, List.mem_cons_of_mem _ (List.mem_cons_of_mem _ h)⟩, h2⟩
  | broadcast txs c n hc => exact ⟨h1, h2⟩
  | tick d => exact ⟨h1, h2⟩
  | callerReturns r0 e hw ha =>
    refine ⟨fun r hr => ?_, fun r hr => h2 r (List.mem_of_mem_erase hr)⟩
    by_cases hrr : r = r0
    · subst hrr; exact Or.inr ⟨e, List.mem_cons_self ..⟩
    · exact (h1 r hr).imp (fun h => (List.mem_erase_of_ne hrr).2 h) fun ⟨e, h⟩ => ⟨e, List.mem_cons_of_mem _ h⟩
  | callerGivesUp r0 e hw =>
    refine ⟨fun r hr => ?_, fun r hr => h2 r (List.mem_of_mem_erase hr)⟩
    by_cases hrr : r = r0
    · subst hrr; exact Or.inr ⟨some e, List.mem_cons_self ..⟩
    · exact (h1 r hr).imp (fun h => (List.mem_erase_of_ne hrr).2 h) fun ⟨e, h⟩ => ⟨e, List.mem_cons_of_mem _ h⟩

private theorem callers_reach {dur : Int} {s : State} (h : TxA.Reachable dur s) : CallersInv s := by
  obtain ⟨now, ls, hr⟩ := h
  exact run_ind (P := CallersInv) (fun _ _ _ h hs => callers_step h (step_eff hs)) ls _ s
    ⟨fun r hr => absurd hr (Nat.not_lt_zero _), fun r hr => absurd hr (List.not_mem_nil)⟩ hr

private theorem reach_step {dur : Int} {s s' : State} {l : TxA.Label} (h : TxA.Reachable dur s)
    (hs : TxA.step s l = some s') : TxA.Reachable dur s' := by
  obtain ⟨now, ls, hr⟩ := h
  refine ⟨now, ls ++ [l], ?_⟩
  have key : ∀ (ls : List TxA.Label) (a : State), TxA.run a ls = some s → TxA.run a (ls ++ [l]) = some s' := by
    intro ls
    induction ls with
    | nil => intro a ha; cases ha; simp [TxA.run, hs]
    | cons x ls ih =>
      intro a ha
      simp only [List.cons_append, TxA.run] at ha ⊢
      split at ha
      · rename_i a1 h1; exact ih a1 ha
      · cases ha
  exact key ls _ hr

private theorem exec_reach {dur : Int} {σ : Nat → State} {ev : Nat → TxA.Label} (h : TxA.Exec σ ev)
    (h0 : TxA.Reachable dur (σ 0)) (n : Nat) : TxA.Reachable dur (σ n) := by
  induction n with
  | zero => exact h0
  | succ n ih => exact reach_step ih (h n)

private theorem answerOf_some {log : List Obs} {r : Nat} (h : r ∈ answered log) : (answerOf log r).isSome = true := by
  simp only [answered, List.mem_filterMap] at h
  obtain ⟨o, ho, h1⟩ := h
  rw [answerOf, List.findSome?_isSome_iff]
  cases o with
  | answer r' e => cases h1; exact ⟨_, ho, by simp⟩
  | _ => cases h1

/-- A waiting call can always be brought forward. -/
private theorem can_step {dur : Int} {s : State} (h : TxA.Reachable dur s) {r : Nat} (hr : r ∈ s.waiting) :
    ∃ x, About r s x ∧ (TxA.step s x).isSome = true := by
  have hlt := (callers_reach h).2 r hr
  have hown := (C65_exactly_once dur s h).1.mem_iff.2 (List.mem_range.2 hlt)
  simp only [List.mem_append] at hown
  rcases hown with (hq | hj) | ha
  · obtain ⟨⟨r', tx⟩, hx, rfl⟩ := List.mem_map.1 hq
    obtain ⟨i, hi⟩ := List.mem_iff_getElem?.1 hx
    refine ⟨.work i, ⟨tx, hi⟩, ?_⟩
    simp only [TxA.step, hi]
    split
    · rfl
    · split <;> rfl
  · obtain ⟨⟨r', tx, st⟩, hx, rfl⟩ := List.mem_map.1 hj
    obtain ⟨i, hi⟩ := List.mem_iff_getElem?.1 hx
    cases st with
    | admitted => exact ⟨.submit i, ⟨tx, _, hi⟩, by simp only [TxA.step, hi]; rfl⟩
    | inRPC => exact ⟨.rpcReturn i none, ⟨tx, _, hi⟩, by simp only [TxA.step, hi]; rfl⟩
  · refine ⟨.callerReturns r, rfl, ?_⟩
    obtain ⟨e, he⟩ := Option.isSome_iff_exists.1 (answerOf_some ha)
    simp only [TxA.step, if_pos hr, he]
    rfl

/-- C96. In every infinite execution in which no call is neglected for ever (workers become free, the chain answers, callers
are scheduled), every call of `ApplyTransaction` returns, however many further calls and block broadcasts there are. -/
theorem C96_every_call_returns {dur : Int} (hd : 0 ≤ dur) {σ : Nat → State} {ev : Nat → TxA.Label}
    (h0 : TxA.Reachable dur (σ 0)) (h : TxA.Exec σ ev) {r : Nat} (hf : FairCall σ ev r) {n : Nat} {tx : Tx}
    (hc : Obs.call r tx ∈ (σ n).log) : ∃ m, n ≤ m ∧ ∃ e, Obs.returned r e ∈ (σ m).log := by
  have hrn := exec_reach h h0 n
  have hlt : r < (σ n).nextReq := by
    obtain ⟨now, ls, hr⟩ := hrn
    exact (reqInv_run hr).calls r tx hc
  rcases (callers_reach hrn).1 r hlt with hw | he
  case inr => exact ⟨n, Nat.le_refl _, he⟩
  refine leads_to (ev := ev) (left r) (fun s => TxA.Reachable dur s ∧ r ∈ s.waiting)
    (fun s => ∃ e, Obs.returned r e ∈ s.log) (About r) ?_ ?_ n ⟨hrn, hw⟩
  case refine_2 =>
    intro k hall
    exact hf k fun m hm => can_step (hall m hm).1.1 (hall m hm).1.2
  intro k ⟨hre, hw⟩ _
  have hst := h k
  have hre' := reach_step hre hst
  have hcr := C03_no_panic_partial dur hd _ hre'
  have hlt : r < (σ k).nextReq := (callers_reach hre).2 r hw
  revert hst hre' hcr
  cases hev : ev k with
  | call tx =>
    intro hst hre' _
    simp only [TxA.step, Option.some.injEq] at hst
    rw [← hst] at hre' ⊢
    right
    refine ⟨⟨hre', List.mem_cons_of_mem _ hw⟩, ?_, fun hc => hc.elim⟩
    simp only [left, List.map_append, List.map_cons, List.map_nil, List.sum_append, List.sum_cons, List.sum_nil]
    rw [show qw r ((σ k).nextReq, tx) = 0 from if_neg (by dsimp only; omega)]
    omega
  | work i =>
    intro hst hre' hcr
    right
    simp only [TxA.step] at hst
    split at hst
    · cases hst
    · rename_i r' tx hq
      have hsum := sum_erase_add hq (qw r)
      split at hst
      · simp only [Option.some.injEq] at hst; rw [← hst] at hcr; cases hcr
      · rename_i c m hm
        split at hst
        · simp only [Option.some.injEq] at hst
          rw [← hst] at hre' ⊢
          refine ⟨⟨hre', hw⟩, ?_, ?_⟩
          · simp only [left, List.map_append, List.map_cons, List.map_nil, List.sum_append, List.sum_cons, List.sum_nil]
            by_cases hrr : r' = r
            · simp only [qw, jw, hrr, if_true] at hsum ⊢; omega
            · simp only [qw, jw, hrr, if_false] at hsum ⊢; omega
          · rintro ⟨tx', h'⟩
            rw [hq] at h'; cases h'
            simp only [left, List.map_append, List.map_cons, List.map_nil, List.sum_append, List.sum_cons, List.sum_nil]
            simp only [qw, jw, if_true] at hsum ⊢; omega
        · simp only [Option.some.injEq] at hst
          rw [← hst] at hre' ⊢
          refine ⟨⟨hre', hw⟩, ?_, ?_⟩
          · simp only [left]; omega
          · rintro ⟨tx', h'⟩
            rw [hq] at h'; cases h'
            simp only [left]
            simp only [qw, if_true] at hsum ⊢; omega
  | submit i =>
    intro hst hre' _
    right
    simp only [TxA.step] at hst
    split at hst
    · rename_i r' tx hj
      simp only [Option.some.injEq] at hst
      rw [← hst] at hre' ⊢
      have hsum := sum_set_add (a' := (⟨r', tx, .inRPC⟩ : Job)) hj (jw r)
      refine ⟨⟨hre', hw⟩, ?_, ?_⟩
      · simp only [left]
        by_cases hrr : r' = r
        · simp only [jw, hrr, if_true] at hsum ⊢; omega
        · simp only [jw, hrr, if_false] at hsum ⊢; omega
      · rintro ⟨tx', st, h'⟩
        rw [hj] at h'; cases h'
        simp only [left]
        simp only [jw, if_true] at hsum ⊢; omega
    · cases hst
  | rpcReturn i e =>
    intro hst hre' _
    right
    simp only [TxA.step] at hst
    split at hst
    · rename_i r' tx hj
      simp only [Option.some.injEq] at hst
      rw [← hst] at hre' ⊢
      have hsum := sum_erase_add hj (jw r)
      refine ⟨⟨hre', hw⟩, ?_, ?_⟩
      · simp only [left]; omega
      · rintro ⟨tx', st, h'⟩
        rw [hj] at h'; cases h'
        simp only [left]
        simp only [jw, if_true] at hsum ⊢; omega
    · cases hst
  | broadcast txs =>
    intro hst hre' hcr
    right
    simp only [TxA.step] at hst
    split at hst
    · simp only [Option.some.injEq] at hst; rw [← hst] at hcr; cases hcr
    · simp only [Option.some.injEq] at hst
      rw [← hst] at hre' ⊢
      exact ⟨⟨hre', hw⟩, Nat.le_refl _, fun hc => hc.elim⟩
  | callerReturns r' =>
    intro hst hre' _
    simp only [TxA.step] at hst
    split at hst
    · split at hst
      · rename_i e he
        simp only [Option.some.injEq] at hst
        rw [← hst] at hre' ⊢
        by_cases hrr : r = r'
        · subst hrr; left; exact ⟨e, List.mem_cons_self ..⟩
        · right
          exact ⟨⟨hre', (List.mem_erase_of_ne hrr).2 hw⟩, Nat.le_refl _, fun hc => absurd hc.symm hrr⟩
      · cases hst
    · cases hst
  | callerGivesUp r' e =>
    intro hst hre' _
    simp only [TxA.step] at hst
    split at hst
    · simp only [Option.some.injEq] at hst
      rw [← hst] at hre' ⊢
      by_cases hrr : r = r'
      · subst hrr; left; exact ⟨some e, List.mem_cons_self ..⟩
      · right
        exact ⟨⟨hre', (List.mem_erase_of_ne hrr).2 hw⟩, Nat.le_refl _, fun hc => hc.elim⟩
    · cases hst
  | tick d =>
    intro hst hre' _
    simp only [TxA.step, Option.some.injEq] at hst
    rw [← hst] at hre' ⊢
    right
    exact ⟨⟨hre', hw⟩, Nat.le_refl _, fun hc => hc.elim⟩

/-! ### An execution that meets the hypotheses -/

private def thenTicks (s : State) : List TxA.Label → Nat → State
  | [], n => { s with now := s.now + n }
  | _ :: _, 0 => s
  | l :: ls, n + 1 => thenTicks ((TxA.step s l).getD s) ls n

private def evTicks : List TxA.Label → Nat → TxA.Label
  | [], _ => .tick 1
  | l :: _, 0 => l
  | _ :: ls, n + 1 => evTicks ls n

private theorem ticks_zero (s : State) (ls : List TxA.Label) : thenTicks s ls 0 = s := by
  cases ls with
  | nil => simp [thenTicks]
  | cons l ls => rfl

private theorem ticks_exec (ls : List TxA.Label) : ∀ s s', TxA.run s ls = some s' → TxA.Exec (thenTicks s ls) (evTicks ls) := by
  induction ls with
  | nil =>
    intro s s' _ n
    simp only [thenTicks, evTicks, TxA.step, Option.some.injEq, State.mk.injEq, true_and, and_true]
    push_cast
    omega
  | cons l ls ih =>
    intro s s' hr n
    simp only [TxA.run] at hr
    split at hr
    · rename_i s1 h1
      cases n with
      | zero =>
        show TxA.step s l = some (thenTicks ((TxA.step s l).getD s) ls 0)
        rw [ticks_zero, h1]; rfl
      | succ n =>
        show TxA.step (thenTicks ((TxA.step s l).getD s) ls n) (evTicks ls n) =
          some (thenTicks ((TxA.step s l).getD s) ls (n + 1))
        rw [h1]
        exact ih s1 s' hr n
    · cases hr

private theorem ticks_end (ls : List TxA.Label) : ∀ s s', TxA.run s ls = some s' →
    ∀ n, thenTicks s ls (ls.length + n) = { s' with now := s'.now + n } := by
  induction ls with
  | nil => intro s s' hr n; cases hr; simp [thenTicks]
  | cons l ls ih =>
    intro s s' hr n
    simp only [TxA.run] at hr
    split at hr
    · rename_i s1 h1
      rw [show (l :: ls).length + n = (ls.length + n) + 1 from by simp only [List.length_cons]; omega]
      show thenTicks ((TxA.step s l).getD s) ls (ls.length + n) = _
      rw [h1]
      exact ih s1 s' hr n
    · cases hr

/-- After a run that leaves nothing to do, letting time pass is fair. -/
private theorem ticks_fair {s s' : State} {ls : List TxA.Label} (hr : TxA.run s ls = some s') (h1 : s'.queue = [])
    (h2 : s'.jobs = []) (h3 : s'.waiting = []) (r : Nat) : FairCall (thenTicks s ls) (evTicks ls) r := by
  intro n hall
  obtain ⟨x, _, hx⟩ := hall (ls.length + n) (by omega)
  rename_i ha
  rw [ticks_end ls s s' hr n] at hx ha
  cases x <;> simp_all [About, TxA.step]

private def exTx : Tx := ⟨some [7], []⟩

private def exCalls : List TxA.Label :=
  [.call exTx, .call exTx, .work 0, .submit 0, .work 0, .callerReturns 1, .rpcReturn 0 (some (.other 7)), .callerReturns 0]

example : ∃ s', TxA.run (TxA.init 10 0) exCalls = some s' ∧ s'.queue = [] ∧ s'.jobs = [] ∧ s'.waiting = [] ∧
    TxA.Exec (thenTicks (TxA.init 10 0) exCalls) (evTicks exCalls) ∧
    (∀ r, FairCall (thenTicks (TxA.init 10 0) exCalls) (evTicks exCalls) r) ∧
    Obs.call 1 exTx ∈ (thenTicks (TxA.init 10 0) exCalls 2).log := by
  have h1 : (TxA.run (TxA.init 10 0) exCalls).isSome = true := by decide +kernel
  obtain ⟨s', hs'⟩ := Option.isSome_iff_exists.1 h1
  have hq : ((TxA.run (TxA.init 10 0) exCalls).map fun s => (s.queue, s.jobs, s.waiting)) = some ([], [], []) := by
    decide +kernel
  rw [hs'] at hq
  simp only [Option.map_some, Option.some.injEq, Prod.mk.injEq] at hq
  exact ⟨s', hs', hq.1, hq.2.1, hq.2.2, ticks_exec _ _ _ hs', ticks_fair hs' hq.1 hq.2.1 hq.2.2, by decide +kernel⟩

end KP2P

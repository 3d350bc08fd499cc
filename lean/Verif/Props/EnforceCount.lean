import Verif.Props.Enforce
/-!
# C101 and C99, counted: no report is lost or dealt with twice, and one conviction leads to one request
-/

namespace KP2P
open KP2P.Enforce
open KP2P.ErrHandler (Event)
open KP2P.Spec

variable {d : Spec.Decay} {o : ErrOpts}

/-- The observation says how a report of `e` over `c` was dealt with. -/
def dealtB (c : Conn) (e : Err) : Obs → Bool
  | .ignored c' e' => decide (c' = c ∧ e' = e)
  | .charged c' e' _ _ _ => decide (c' = c ∧ e' = e)
  | _ => false

/-- `dealtB` is the `Dealt` of the specification. -/
theorem dealtB_iff (c : Conn) (e : Err) (x : Obs) : dealtB c e x = true ↔ Dealt c e x := by
  cases x <;> simp [dealtB, Dealt]

/-- The observation convicts a peer: the score reached the limit `n`. -/
def convicts (n : UInt64) : Obs → Bool
  | .charged _ _ _ sc _ => decide (n ≤ sc)
  | _ => false

private theorem count_erase {α : Type} [BEq α] [LawfulBEq α] [DecidableEq α] {l : List α} {i : Nat} {x : α} (hi : l[i]? = some x)
    (y : α) :
    l.count y = (l.eraseIdx i).count y + if x = y then 1 else 0 := by
  induction l generalizing i with
  | nil => simp at hi
  | cons z l ih =>
    cases i with
    | zero =>
      simp only [List.getElem?_cons_zero, Option.some.injEq] at hi
      simp [List.count_cons, hi]
    | succ i =>
      simp only [List.getElem?_cons_succ] at hi
      have := ih hi
      simp only [List.eraseIdx_cons_succ, List.count_cons]
      omega

/-- C101. No report is lost and none is dealt with twice: those made are those dealt with and those waiting. -/
theorem C101_once (s : Enforce.State) (h : Enforce.Reachable d o s) (c : Conn) (e : Err) :
    s.log.count (.reported c e) = s.log.countP (dealtB c e) + s.errs.count (c, e) := by
  obtain ⟨t, ls, hr⟩ := h
  refine run_ind (P := fun s => s.log.count (.reported c e) = s.log.countP (dealtB c e) + s.errs.count (c, e))
    (fun s l s' hi hs => ?_) ls (Enforce.init t) s rfl hr
  cases tr_of_step s s' l hs with
  | report c' e' hc =>
    simp only [List.count_cons, List.countP_cons, List.count_append, List.count_nil, dealtB] at hi ⊢
    by_cases hh : c' = c ∧ e' = e
    · obtain ⟨rfl, rfl⟩ := hh
      simp
      omega
    · have h1 : ¬ (Obs.reported c' e' = .reported c e) := by simpa using hh
      have h2 : ¬ ((c', e') = (c, e)) := by simpa using hh
      simp [h1, h2]
      omega
  | charge i c' e' a hc ha p hp =>
    have := count_erase hc (c, e)
    simp only [List.count_cons, List.countP_cons, dealtB, Prod.mk.injEq] at hi this ⊢
    simp
    omega
  | ignore i c' e' hc ha =>
    have := count_erase hc (c, e)
    simp only [List.count_cons, List.countP_cons, dealtB, Prod.mk.injEq] at hi this ⊢
    simp
    omega
  | close i p hp =>
    have h1 : List.count (Obs.reported c e) ((s.live.filter fun c => c.peer == p).map Obs.closed).reverse = 0 :=
      List.count_eq_zero.2 (by simp)
    have h2 : List.countP (dealtB c e) ((s.live.filter fun c => c.peer == p).map Obs.closed).reverse = 0 :=
      by
      refine List.countP_eq_zero.2 fun x hx => ?_
      simp only [List.mem_reverse, List.mem_map] at hx
      obtain ⟨_, _, rfl⟩ := hx
      simp [dealtB]
    simp only [List.count_append, List.countP_append, h1, h2]
    omega
  | _ => simpa [dealtB] using hi

/-- C101. What is reported is dealt with later, if the error handler does not neglect any report. -/
theorem C101_reported (σ : Nat → Enforce.State) (ev : Nat → Enforce.Label) (hx : Exec d o σ ev) (hf : FairReports σ ev)
    (n : Nat) (c : Conn) (e : Err) (hr : (σ (n + 1)).log = .reported c e :: (σ n).log) :
    ∃ m, n < m ∧ ∃ x, Dealt c e x ∧ (σ (m + 1)).log = x :: (σ m).log := by
  refine C101_dealt_with σ ev hx hf (n + 1) c e ?_
  have hst := hx n
  generalize ev n = l at hst
  generalize hs' : σ (n + 1) = s' at hst hr ⊢
  cases tr_of_step _ _ _ hst with
  | report c' e' hc =>
    simp only [List.cons.injEq, Obs.reported.injEq, and_true] at hr
    simp [hr.1, hr.2]
  | close i q hq =>
    exfalso
    have hm : Obs.reported c e ∈ (((σ n).live.filter fun c => c.peer == q).map Obs.closed).reverse := by
      cases hr' : (((σ n).live.filter fun c => c.peer == q).map Obs.closed).reverse with
      | nil => simp only [hr', List.nil_append] at hr; have := congrArg List.length hr; simp at this
      | cons y l => simp only [hr', List.cons_append, List.cons.injEq] at hr; rw [hr.1]; simp
    simp at hm
  | _ => simp at hr

/-- The step carries out a request to disconnect. -/
def isClose : Enforce.Label → Bool
  | .close _ => true
  | _ => false

private theorem entered (h : ErrHandler) (t : Int) (p : Bytes) (a : MAddr) (e : Err) :
    scoreOf (h.handle d o t (.perr p (some a) e)).1 a = ((h.bal a.ip).at d t).getD 0 + getScoreForError o e := by
  rw [scoreOf_bal, ErrHandler.bal_handle]
  simp only [Event.entryFor, if_true, Balance.post]
  cases (h.bal a.ip).at d t <;> simp

private theorem one_step (s : Enforce.State) (l : Enforce.Label) (s' : Enforce.State) (hs : Enforce.step d o s l = some s') :
    (if isClose l then 1 else 0) + s'.closing.length + s.log.countP (convicts o.threshold) =
      s.closing.length + s'.log.countP (convicts o.threshold) := by
  cases tr_of_step s s' l hs with
  | charge i c e a hc ha p hp =>
    rw [ErrHandler.reaction_perr] at hp
    injection hp with hp
    simp only [isClose, List.countP_cons, convicts, entered, List.length_append]
    subst hp
    by_cases hh : o.threshold ≤ ((s.eh.bal a.ip).at d s.now).getD 0 + getScoreForError o e
    · simp [hh]; omega
    · simp [hh]
  | close i p hp =>
    have h2 : List.countP (convicts o.threshold) ((s.live.filter fun c => c.peer == p).map Obs.closed).reverse = 0 :=
      by
      refine List.countP_eq_zero.2 fun x hx => ?_
      simp only [List.mem_reverse, List.mem_map] at hx
      obtain ⟨_, _, rfl⟩ := hx
      simp [convicts]
    have hlt := (List.getElem?_eq_some_iff.1 hp).1
    simp only [isClose, List.countP_append, h2, List.length_eraseIdx, hlt, if_true]
    omega
  | _ => simp [isClose, convicts]

/-- C99. One conviction, one request to disconnect: the requests carried out and those outstanding are as many as the errors
charged that found or brought a score at the limit. -/
theorem C99_one_each (ls : List Enforce.Label) (t : Time) (s : Enforce.State)
    (hr : Enforce.run d o (Enforce.init t) ls = some s) :
    ls.countP isClose + s.closing.length = s.log.countP (convicts o.threshold) := by
  suffices h : ∀ (ls : List Enforce.Label) (s0 : Enforce.State), Enforce.run d o s0 ls = some s →
      ls.countP isClose + s.closing.length + s0.log.countP (convicts o.threshold) =
        s0.closing.length + s.log.countP (convicts o.threshold) by
    simpa [Enforce.init] using h ls _ hr
  intro ls
  induction ls with
  | nil => intro s0 h; cases h; simp
  | cons l ls ih =>
    intro s0 h
    simp only [Enforce.run] at h
    split at h
    · rename_i s1 h1
      have h2 := one_step s0 l s1 h1
      have h3 := ih s1 h
      rw [List.countP_cons]
      omega
    · cases h

/-- A run with two convictions: one request is carried out, the other one is outstanding. -/
example : ∃ s, Enforce.run (fun _ s => s) .default (Enforce.init 0)
    [.knock [1] ⟨[10], []⟩, .secure 0, .establish 0, .note 0, .report ⟨[1], ⟨[10], []⟩, 0⟩ (.sentinel .forkBomb),
      .report ⟨[1], ⟨[10], []⟩, 0⟩ (.sentinel .forkBomb), .handle 0, .handle 0, .close 0] = some s ∧
    s.closing = [[1]] ∧ s.live = [] ∧ s.log.countP (convicts ErrOpts.default.threshold) = 2 ∧
    s.log.count (.reported ⟨[1], ⟨[10], []⟩, 0⟩ (.sentinel .forkBomb)) = 2 :=
  ⟨_, rfl, by decide +kernel, by decide +kernel, by decide +kernel, by decide +kernel⟩

end KP2P

import Verif.Spec.ApplicatorFair
import Verif.Proof.ApplicatorSched
import Mathlib.Data.Prod.Lex
import Mathlib.Order.WellFounded
/-!
# Applicator: what is under way decreases
-/

namespace KP2P
namespace App

/-- Weight of the stage of an application. -/
def stageW : Stage → Nat
  | .delaying _ _ => 4
  | .queued => 3
  | .inRPC => 2
  | .done _ => 1

/-- The application has ended with the block-state error. -/
def stateErr (a : BApp) : Bool :=
  match a.stage with
  | .done e => errIs e .blockState
  | _ => false

/-- Wake-ups and applications of blocks that are no longer waiting. -/
def strays (s : AState) : Nat :=
  s.tries.countP (fun t => !s.byId.has t.1.id) + s.retries.countP (fun t => !s.byId.has t.2.id) +
    s.apps.countP (fun a => !s.byId.has a.blk.id)

/-- Total weight of what is under way. -/
def load (s : AState) : Nat :=
  5 * s.tries.length + 5 * s.retries.length + (s.apps.map fun a => stageW a.stage).sum + s.waiting.length

/-- The measure, compared lexicographically. -/
def rank (s : AState) : Nat ×ₗ Nat ×ₗ Nat ×ₗ Nat ×ₗ Nat :=
  toLex (s.apps.countP stateErr, toLex (s.newQ.length, toLex (s.byId.len, toLex (strays s, load s))))

theorem rank_lt_iff (s s' : AState) : rank s' < rank s ↔
    s'.apps.countP stateErr < s.apps.countP stateErr ∨ s'.apps.countP stateErr = s.apps.countP stateErr ∧
    (s'.newQ.length < s.newQ.length ∨ s'.newQ.length = s.newQ.length ∧
    (s'.byId.len < s.byId.len ∨ s'.byId.len = s.byId.len ∧
    (strays s' < strays s ∨ strays s' = strays s ∧ load s' < load s))) := by
  simp only [rank, Prod.Lex.toLex_lt_toLex]

theorem rank_lt_low {s s' : AState} (h1 : s'.apps.countP stateErr ≤ s.apps.countP stateErr) (h2 : s'.newQ = s.newQ)
    (h3 : s'.byId = s.byId) (h4 : strays s' ≤ strays s) (h5 : load s' < load s) : rank s' < rank s := by
  rw [rank_lt_iff, h2, h3]
  omega

theorem rank_eq_of {s s' : AState} (h1 : s'.apps = s.apps) (h2 : s'.newQ = s.newQ) (h3 : s'.byId = s.byId)
    (h4 : strays s' = strays s) (h5 : load s' = load s) : rank s' = rank s := by
  simp only [rank, h1, h2, h3, h4, h5]

/-- Steps that only postpone. -/
def Postpones (s : AState) : Label → Prop
  | .tick _ => True
  | .retryDue _ => True
  | .tryBlock i => ∃ b, s.tries[i]? = some (b, true) ∧ s.pending.has b.id = true
  | _ => False

theorem countP_set_add {α : Type} {l : List α} {i : Nat} {a a' : α} (h : l[i]? = some a) (p : α → Bool) :
    (l.set i a').countP p + (if p a then 1 else 0) = l.countP p + (if p a' then 1 else 0) := by
  induction l generalizing i with
  | nil => cases h
  | cons x l ih =>
    cases i with
    | zero => simp at h; subst h; simp only [List.set_cons_zero, List.countP_cons]; omega
    | succ i =>
      simp only [List.getElem?_cons_succ] at h
      have := ih h
      simp only [List.set_cons_succ, List.countP_cons]; omega

theorem sum_set_add {α : Type} {l : List α} {i : Nat} {a a' : α} (h : l[i]? = some a) (f : α → Nat) :
    ((l.set i a').map f).sum + f a = (l.map f).sum + f a' := by
  induction l generalizing i with
  | nil => cases h
  | cons x l ih =>
    cases i with
    | zero => simp at h; subst h; simp only [List.set_cons_zero, List.map_cons, List.sum_cons]; omega
    | succ i =>
      simp only [List.getElem?_cons_succ] at h
      have := ih h
      simp only [List.set_cons_succ, List.map_cons, List.sum_cons]; omega

theorem sum_eraseIdx_add {α : Type} {l : List α} {i : Nat} {a : α} (h : l[i]? = some a) (f : α → Nat) :
    ((l.eraseIdx i).map f).sum + f a = (l.map f).sum := by
  induction l generalizing i with
  | nil => cases h
  | cons x l ih =>
    cases i with
    | zero => simp at h; subst h; simp only [List.eraseIdx_cons_zero, List.map_cons, List.sum_cons]; omega
    | succ i =>
      simp only [List.getElem?_cons_succ] at h
      have := ih h
      simp only [List.eraseIdx_cons_succ, List.map_cons, List.sum_cons]; omega

theorem length_eraseIdx_add {α : Type} {l : List α} {i : Nat} {a : α} (h : l[i]? = some a) :
    (l.eraseIdx i).length + 1 = l.length := by
  have := (perm_eraseIdx h).length_eq
  simpa using this.symm

theorem length_erase_add {l : List Nat} {r : Nat} (h : r ∈ l) : (l.erase r).length + 1 = l.length := by
  have := (List.perm_cons_erase h).length_eq
  simpa using this.symm

/-- Moving an application to a later stage. -/
theorem rank_setApp {s s' : AState} {i : Nat} {b : Blk} {st st' : Stage} (ha : s.apps[i]? = some ⟨b, st⟩)
    (h1 : s'.apps = s.apps.set i ⟨b, st'⟩) (h2 : s'.newQ = s.newQ) (h3 : s'.byId = s.byId) (h4 : s'.tries = s.tries)
    (h5 : s'.retries = s.retries) (h6 : s'.waiting = s.waiting) (hw : stageW st' < stageW st)
    (he : stateErr ⟨b, st'⟩ = false) : rank s' < rank s := by
  rw [rank_lt_iff]
  have c1 := countP_set_add (a' := ⟨b, st'⟩) ha stateErr
  have c2 := countP_set_add (a' := ⟨b, st'⟩) ha (fun a => !s.byId.has a.blk.id)
  have c3 := sum_set_add (a' := ⟨b, st'⟩) ha (fun a => stageW a.stage)
  simp only [he] at c1
  dsimp only at c2 c3
  have e1 : s'.apps.countP stateErr ≤ s.apps.countP stateErr := by
    rw [h1]; simp only [Bool.false_eq_true, if_false] at c1; omega
  have e2 : strays s' = strays s := by unfold strays; rw [h1, h3, h4, h5]; omega
  have e3 : load s' < load s := by unfold load; rw [h1, h4, h5, h6]; omega
  rw [h2, h3]
  omega

theorem len_remove (s : AState) (id : Bytes) (e : Option Err) :
    (removeBlockEntry s id e).byId.len = if s.byId.has id then s.byId.len - 1 else s.byId.len := by
  unfold removeBlockEntry
  cases hg : s.byId.get id with
  | none => simp [GoMap.has_eq, hg]
  | some entry => simp only [answerAll, GoMap.len_del]

theorem remove_of_not_has (s : AState) (id : Bytes) (e : Option Err) (h : s.byId.has id = false) :
    removeBlockEntry s id e = s := by
  unfold removeBlockEntry
  rw [GoMap.has_eq] at h
  cases hg : s.byId.get id with
  | none => rfl
  | some entry => simp [hg] at h

/-- Every quiet step lowers the rank, except those that only postpone, which keep it. -/
theorem rank_step {o : AppOpts} {s s' : AState} {l : Label} (hinv : Inv o s) (hq : Quiet l)
    (hst : step o s l = some s') : rank s' < rank s ∨ (rank s' = rank s ∧ Postpones s l) := by
  cases l with
  | applyBlock b => exact hq.elim
  | forkHeads heads lib => exact hq.elim
  | broadcast id height => exact hq.elim
  | callerReturns r =>
    obtain ⟨hm, e, _, rfl⟩ := step_callerReturns hst
    have := length_erase_add hm
    exact Or.inl (rank_lt_low (Nat.le_refl _) rfl rfl (Nat.le_refl _) (by simp only [load]; omega))
  | callerTimesOut r =>
    obtain ⟨hm, rfl⟩ := step_callerTimesOut hst
    have := length_erase_add hm
    exact Or.inl (rank_lt_low (Nat.le_refl _) rfl rfl (Nat.le_refl _) (by simp only [load]; omega))
  | newBlock i =>
    obtain ⟨_, r, b, hx, rfl⟩ := step_newBlock hst
    have hl := length_eraseIdx_add hx
    left; rw [rank_lt_iff]
    have e1 : (handleNewBlock o { s with newQ := s.newQ.eraseIdx i } r b).apps = s.apps := by
      unfold handleNewBlock
      split
      · rfl
      · obtain ⟨m, p, h, hf⟩ := addTables_frame { s with newQ := s.newQ.eraseIdx i } r b
        rcases addBlockEntry_cases { s with newQ := s.newQ.eraseIdx i } r b with ⟨_, he⟩ | ⟨_, _, he⟩ <;> rw [he, hf]
    have e2 : (handleNewBlock o { s with newQ := s.newQ.eraseIdx i } r b).newQ = s.newQ.eraseIdx i := by
      unfold handleNewBlock
      split
      · rfl
      · obtain ⟨m, p, h, hf⟩ := addTables_frame { s with newQ := s.newQ.eraseIdx i } r b
        rcases addBlockEntry_cases { s with newQ := s.newQ.eraseIdx i } r b with ⟨_, he⟩ | ⟨_, _, he⟩ <;> rw [he, hf]
    rw [e1, e2]; omega
  | tryBlock i =>
    obtain ⟨_, b, f, hx, rfl⟩ := step_tryBlock hst
    have hl := length_eraseIdx_add hx
    have hc := countP_eraseIdx_add hx (fun t => !s.byId.has t.1.id)
    unfold handleTry
    split
    · rename_i hp
      split
      · rename_i hf
        right
        refine ⟨rank_eq_of rfl rfl rfl ?_ ?_, b, by rw [hx, hf], hp⟩
        · simp only [strays, List.countP_append, List.countP_cons, List.countP_nil] at hc ⊢; omega
        · simp only [load, List.length_append, List.length_cons, List.length_nil]; omega
      · left
        refine rank_lt_low (Nat.le_refl _) rfl rfl ?_ ?_
        · simp only [strays] at hc ⊢; omega
        · simp only [load]; omega
    · left
      have hb : (beginApp o s.now b).blk = b := by unfold beginApp; dsimp only; split <;> rfl
      have hw : stageW (beginApp o s.now b).stage ≤ 4 := by unfold beginApp; dsimp only; split <;> simp [stageW]
      have he : stateErr (beginApp o s.now b) = false := by unfold beginApp; dsimp only; split <;> rfl
      refine rank_lt_low ?_ rfl rfl ?_ ?_
      · simp only [List.countP_append, List.countP_cons, List.countP_nil, he]; simp
      · simp only [strays, List.countP_append, List.countP_cons, List.countP_nil, hb] at hc ⊢; omega
      · simp only [load, List.map_append, List.map_cons, List.map_nil, List.sum_append, List.sum_cons, List.sum_nil]; omega
  | status i =>
    obtain ⟨_, b, e, hx, rfl⟩ := step_status hst
    have hk := countP_eraseIdx_add hx stateErr
    have hc := countP_eraseIdx_add hx (fun a => !s.byId.has a.blk.id)
    have hs := sum_eraseIdx_add hx (fun a => stageW a.stage)
    rw [show stateErr ⟨b, .done e⟩ = errIs e .blockState from rfl] at hk
    left
    rcases handleStatus_cases o { s with apps := s.apps.eraseIdx i } b e with ⟨hb, h⟩ | ⟨hb, hu, h⟩ | ⟨hb, hu, h⟩
    · rw [h, rank_lt_iff]
      rw [hb] at hk
      simp only [trySend, afterStatus, if_true] at hk ⊢
      omega
    · rw [h]
      change _ + 1 = _ at hs
      refine rank_lt_low ?_ rfl rfl ?_ ?_
      · simp only [afterStatus]; omega
      · simp only [afterStatus, strays] at hc ⊢; omega
      · simp only [afterStatus, load]; omega
    · rw [h]
      have hkids : (wakes o { s with apps := s.apps.eraseIdx i } b e).countP (fun t => !s.byId.has t.1.id) = 0 := by
        rw [List.countP_eq_zero]
        intro t ht
        unfold wakes at ht
        split at ht
        · have hi : Idx { s with apps := s.apps.eraseIdx i } := hinv.idx.of_eq rfl rfl rfl
          obtain ⟨⟨x, hx, _⟩, _⟩ := (mem_kids hi b.id t).1 ht
          have : s.byId.has t.1.id = true := (GoMap.has_iff _ _).2 ⟨x, hx⟩
          simp [this]
        · cases ht
      obtain ⟨t, ht⟩ : ∃ t : AState, t = { afterStatus { s with apps := s.apps.eraseIdx i } b e with
        tries := s.tries ++ wakes o { s with apps := s.apps.eraseIdx i } b e } := ⟨_, rfl⟩
      have t1 : t.apps = s.apps.eraseIdx i := by rw [ht]; rfl
      have t2 : t.newQ = s.newQ := by rw [ht]; rfl
      have t3 : t.byId = s.byId := by rw [ht]; rfl
      have t4 : t.tries = s.tries ++ wakes o { s with apps := s.apps.eraseIdx i } b e := by rw [ht]
      have t5 : t.retries = s.retries := by rw [ht]; rfl
      have hr := onlyRemoved_remove t b.id e
      have hlen := len_remove t b.id e
      change rank (removeBlockEntry { afterStatus { s with apps := s.apps.eraseIdx i } b e with
        tries := s.tries ++ wakes o { s with apps := s.apps.eraseIdx i } b e } b.id e) < rank s
      rw [← ht, rank_lt_iff, hr.apps, hr.newQ, hlen, t1, t2, t3]
      rw [hb] at hk
      simp only [Bool.false_eq_true, if_false] at hk
      by_cases hh : s.byId.has b.id = true
      · have := GoMap.len_pos_of_has _ _ hh
        rw [if_pos hh]; omega
      · have hh' : s.byId.has b.id = false := by simpa using hh
        rw [if_neg hh, remove_of_not_has _ _ _ (by rw [t3]; exact hh')]
        simp only [hh', Bool.not_false, if_true] at hc
        have e1 : strays t < strays s := by
          unfold strays
          rw [t1, t3, t4, t5, List.countP_append, hkids]
          omega
        omega
  | delayDone i =>
    obtain ⟨b, t, t', ha, _, rfl⟩ := step_delayDone hst
    exact Or.inl (rank_setApp ha rfl rfl rfl rfl rfl rfl (by simp [stageW]) rfl)
  | delayTimeout i =>
    obtain ⟨b, t, t', ha, _, rfl⟩ := step_delayTimeout hst
    exact Or.inl (rank_setApp ha rfl rfl rfl rfl rfl rfl (by simp [stageW]) rfl)
  | work i =>
    obtain ⟨b, ha, ⟨_, rfl⟩ | ⟨_, rfl⟩⟩ := step_work hst
    · exact Or.inl (rank_setApp ha rfl rfl rfl rfl rfl rfl (by simp [stageW]) rfl)
    · exact Or.inl (rank_setApp ha rfl rfl rfl rfl rfl rfl (by simp [stageW]) rfl)
  | rpcReturn i e =>
    obtain ⟨b, ha, rfl⟩ := step_rpcReturn hst
    exact Or.inl (rank_setApp ha rfl rfl rfl rfl rfl rfl (by simp [stageW]) hq)
  | retryDue i =>
    obtain ⟨t, b, hx, _, rfl⟩ := step_retryDue hst
    have hl := length_eraseIdx_add hx
    have hc := countP_eraseIdx_add hx (fun t => !s.byId.has t.2.id)
    right
    refine ⟨rank_eq_of rfl rfl rfl ?_ ?_, trivial⟩
    · simp only [strays, trySend, List.countP_append, List.countP_cons, List.countP_nil] at hc ⊢; omega
    · simp only [load, trySend, List.length_append, List.length_cons, List.length_nil]; omega
  | tick d =>
    rw [step_tick hst]
    exact Or.inr ⟨rank_eq_of rfl rfl rfl rfl rfl, trivial⟩

/-- A sequence that never rises in a well-founded order is constant in the end. -/
theorem eventually_const {α : Type} [LT α] [WellFoundedLT α] (f : Nat → α)
    (h : ∀ n, f (n + 1) < f n ∨ f (n + 1) = f n) : ∃ N, ∀ n, N ≤ n → f n = f N := by
  obtain ⟨x, ⟨N, rfl⟩, hmin⟩ := (wellFounded_lt (α := α)).has_min (Set.range f) ⟨_, 0, rfl⟩
  refine ⟨N, fun n hn => ?_⟩
  induction n, hn using Nat.le_induction with
  | base => rfl
  | succ n _ ih =>
    rcases h n with h | h
    · rw [ih] at h; exact absurd h (hmin _ ⟨n + 1, rfl⟩)
    · rw [h, ih]

end App
end KP2P

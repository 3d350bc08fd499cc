import Verif.Proof.Fair
import Verif.Spec.WorkersFair
import Mathlib.Data.List.Basic
/-!
# C95: every block gets a worker; C85 under fairness
-/

namespace KP2P
open KP2P.Pool

private theorem begun_cons_block (n : Nat) (log : List Ev) : blocksBegun (.block n :: log) = blocksBegun log ++ [n] := by
  simp [blocksBegun]
private theorem begun_cons_tx (n : Nat) (log : List Ev) : blocksBegun (.tx n :: log) = blocksBegun log := by
  simp [blocksBegun]
private theorem begun_cons_reply (log : List Ev) : blocksBegun (.reply :: log) = blocksBegun log := by
  simp [blocksBegun]
private theorem taken_cons_block (n : Nat) (log : List Ev) : txsTaken (.block n :: log) = txsTaken log := by
  simp [txsTaken]
private theorem taken_cons_tx (n : Nat) (log : List Ev) : txsTaken (.tx n :: log) = txsTaken log ++ [n] := by
  simp [txsTaken]
private theorem taken_cons_reply (log : List Ev) : txsTaken (.reply :: log) = txsTaken log := by
  simp [txsTaken]

/-- What one step does. -/
private theorem step_forms {s s' : Pool.State} {l : Pool.Label} (h : Pool.step s l = some s') :
    (∃ n, l = .sendBlock n ∧ s' = { s with blockQ := s.blockQ ++ [n] }) ∨
    (∃ n, l = .sendTx n ∧ s' = { s with txQ := s.txQ ++ [n] }) ∨
    (∃ i n rest w, (l = .look i ∨ l = .grabBlock i) ∧ s.workers[i]? = some w ∧ w.busy = false ∧ s.blockQ = n :: rest ∧
      s' = { s with workers := s.workers.set i (.block n), blockQ := rest, log := .block n :: s.log }) ∨
    (∃ i, l = .look i ∧ s.workers[i]? = some .looking ∧ s.blockQ = [] ∧ s' = { s with workers := s.workers.set i .idle }) ∨
    (∃ i n rest, l = .grabTx i ∧ s.workers[i]? = some .idle ∧ s.txQ = n :: rest ∧
      s' = { s with workers := s.workers.set i (.tx n), txQ := rest, log := .tx n :: s.log }) ∨
    (∃ i w, l = .reply i ∧ s.workers[i]? = some w ∧ w.busy = true ∧
      s' = { s with workers := s.workers.set i .looking, log := .reply :: s.log }) := by
  cases l <;> simp only [Pool.step] at h
  case sendBlock n => cases h; exact Or.inl ⟨n, rfl, rfl⟩
  case sendTx n => cases h; exact Or.inr (Or.inl ⟨n, rfl, rfl⟩)
  case look i =>
    split at h
    · rename_i hw
      split at h
      · rename_i n rest hq
        cases h
        exact Or.inr (Or.inr (Or.inl ⟨i, n, rest, _, Or.inl rfl, hw, rfl, hq, rfl⟩))
      · rename_i hq
        cases h
        exact Or.inr (Or.inr (Or.inr (Or.inl ⟨i, rfl, hw, hq, rfl⟩)))
    · cases h
  case grabBlock i =>
    split at h
    · rename_i n rest hw hq
      cases h
      exact Or.inr (Or.inr (Or.inl ⟨i, n, rest, _, Or.inr rfl, hw, rfl, hq, rfl⟩))
    · cases h
  case grabTx i =>
    split at h
    · rename_i n rest hw hq
      cases h
      exact Or.inr (Or.inr (Or.inr (Or.inr (Or.inl ⟨i, n, rest, rfl, hw, hq, rfl⟩))))
    · cases h
  case reply i =>
    split at h
    · rename_i n hw
      cases h
      exact Or.inr (Or.inr (Or.inr (Or.inr (Or.inr ⟨i, _, rfl, hw, rfl, rfl⟩))))
    · rename_i n hw
      cases h
      exact Or.inr (Or.inr (Or.inr (Or.inr (Or.inr ⟨i, _, rfl, hw, rfl, rfl⟩))))
    · cases h

/-- Both queues are first in, first out, and the number of workers does not change. -/
private theorem fifo_step {s s' : Pool.State} {l : Pool.Label} (h : Pool.step s l = some s') :
    (blocksBegun s.log ++ s.blockQ <+: blocksBegun s'.log ++ s'.blockQ) ∧ (blocksBegun s.log <+: blocksBegun s'.log) ∧
    (txsTaken s.log ++ s.txQ <+: txsTaken s'.log ++ s'.txQ) ∧ (txsTaken s.log <+: txsTaken s'.log) ∧
    s'.workers.length = s.workers.length ∧
    ((∀ n, l ≠ .sendBlock n) → blocksBegun s.log ++ s.blockQ = blocksBegun s'.log ++ s'.blockQ) := by
  rcases step_forms h with ⟨n, rfl, rfl⟩ | ⟨n, rfl, rfl⟩ | ⟨i, n, rest, w, hl, _, _, hq, rfl⟩ | ⟨i, rfl, _, hq, rfl⟩ |
    ⟨i, n, rest, rfl, _, hq, rfl⟩ | ⟨i, w, rfl, _, _, rfl⟩
  · refine ⟨?_, List.prefix_rfl, List.prefix_rfl, List.prefix_rfl, rfl, fun h => absurd rfl (h n)⟩
    dsimp only; rw [← List.append_assoc]; exact List.prefix_append _ _
  · refine ⟨List.prefix_rfl, List.prefix_rfl, ?_, List.prefix_rfl, rfl, fun _ => rfl⟩
    dsimp only; rw [← List.append_assoc]; exact List.prefix_append _ _
  · have e : blocksBegun s.log ++ s.blockQ = blocksBegun (.block n :: s.log) ++ rest := by
      rw [begun_cons_block, hq, List.append_assoc, List.singleton_append]
    refine ⟨e ▸ List.prefix_rfl, ?_, ?_, ?_, by simp, fun _ => e⟩
    · dsimp only; rw [begun_cons_block]; exact List.prefix_append _ _
    · dsimp only; rw [taken_cons_block]; exact List.prefix_rfl
    · dsimp only; rw [taken_cons_block]; exact List.prefix_rfl
  · exact ⟨List.prefix_rfl, List.prefix_rfl, List.prefix_rfl, List.prefix_rfl, by simp, fun _ => rfl⟩
  · have e : txsTaken s.log ++ s.txQ = txsTaken (.tx n :: s.log) ++ rest := by
      rw [taken_cons_tx, hq, List.append_assoc, List.singleton_append]
    refine ⟨?_, ?_, e ▸ List.prefix_rfl, ?_, by simp, fun _ => ?_⟩
    · dsimp only; rw [begun_cons_tx]; exact List.prefix_rfl
    · dsimp only; rw [begun_cons_tx]; exact List.prefix_rfl
    · dsimp only; rw [taken_cons_tx]; exact List.prefix_append _ _
    · dsimp only; rw [begun_cons_tx]
  · refine ⟨?_, ?_, ?_, ?_, by simp, fun _ => ?_⟩ <;> dsimp only <;> (first | rw [begun_cons_reply] | rw [taken_cons_reply]) <;> exact List.prefix_rfl

private theorem fifo_exec {σ : Nat → Pool.State} {ev : Nat → Pool.Label} (h : Pool.Exec σ ev) (n d : Nat) :
    (blocksBegun (σ n).log ++ (σ n).blockQ <+: blocksBegun (σ (n + d)).log ++ (σ (n + d)).blockQ) ∧
    (blocksBegun (σ n).log <+: blocksBegun (σ (n + d)).log) ∧
    (txsTaken (σ n).log ++ (σ n).txQ <+: txsTaken (σ (n + d)).log ++ (σ (n + d)).txQ) ∧
    (txsTaken (σ n).log <+: txsTaken (σ (n + d)).log) ∧
    (σ (n + d)).workers.length = (σ n).workers.length := by
  induction d with
  | zero => exact ⟨List.prefix_rfl, List.prefix_rfl, List.prefix_rfl, List.prefix_rfl, rfl⟩
  | succ d ih =>
    obtain ⟨a, b, c, e, f⟩ := ih
    obtain ⟨a', b', c', e', f', _⟩ := fifo_step (h (n + d))
    exact ⟨a.trans a', b.trans b', c.trans c', e.trans e', f'.trans f⟩

private theorem len_workers {σ : Nat → Pool.State} {ev : Nat → Pool.Label} (h : Pool.Exec σ ev) (n : Nat) :
    (σ n).workers.length = (σ 0).workers.length := by
  have := (fifo_exec h 0 n).2.2.2.2
  rwa [Nat.zero_add] at this

/-- How far worker `i` is from looking for a block. -/
private def blockRank (i : Nat) (s : Pool.State) : Nat :=
  match s.workers[i]? with
  | some .idle => 2
  | some .looking => 0
  | _ => 1

/-- Some step of worker `i` is possible while a block waits. -/
private theorem can_step_block {i : Nat} {s : Pool.State} (hi : i < s.workers.length) (hq : s.blockQ ≠ []) :
    ∃ x, Pool.Of i x ∧ (Pool.step s x).isSome = true := by
  obtain ⟨w, hw⟩ : ∃ w, s.workers[i]? = some w := ⟨_, List.getElem?_eq_getElem hi⟩
  obtain ⟨n, rest, hq⟩ := List.exists_cons_of_ne_nil hq
  cases w with
  | looking => exact ⟨.look i, rfl, by simp [Pool.step, hw, hq]⟩
  | idle => exact ⟨.grabBlock i, rfl, by simp [Pool.step, hw, hq]⟩
  | block k => exact ⟨.reply i, rfl, by simp [Pool.step, hw]⟩
  | tx k => exact ⟨.reply i, rfl, by simp [Pool.step, hw]⟩

private theorem next_block {σ : Nat → Pool.State} {ev : Nat → Pool.Label} (h : Pool.Exec σ ev) {i : Nat}
    (hi : i < (σ 0).workers.length) (hf : FairWorker σ ev i) (n : Nat) (hq : (σ n).blockQ ≠ []) :
    ∃ m, n ≤ m ∧ (blocksBegun (σ n).log).length < (blocksBegun (σ m).log).length := by
  obtain ⟨c, hc⟩ : ∃ c, c = (blocksBegun (σ n).log).length := ⟨_, rfl⟩
  rw [← hc]
  refine leads_to (ev := ev) (blockRank i) (fun s => s.blockQ ≠ [] ∧ (blocksBegun s.log).length = c)
    (fun s => c < (blocksBegun s.log).length) (fun _ l => Pool.Of i l) ?_ ?_ n ⟨hq, hc.symm⟩
  · intro k ⟨hq, hlen⟩ _
    rcases step_forms (h k) with ⟨n, hl, hs⟩ | ⟨n, hl, hs⟩ | ⟨j, n, rest, w, hl, _, _, hq, hs⟩ | ⟨j, hl, _, hq', hs⟩ |
      ⟨j, n, rest, hl, hw, hq', hs⟩ | ⟨j, w, hl, hw, hb, hs⟩
    · right; rw [hs, hl]; exact ⟨⟨by simp, hlen⟩, Nat.le_refl _, fun hc => hc.elim⟩
    · right; rw [hs, hl]; exact ⟨⟨hq, hlen⟩, Nat.le_refl _, fun hc => hc.elim⟩
    · left; rw [hs]; dsimp only; rw [begun_cons_block]; simp [hlen]
    · exact absurd hq' hq
    · right
      rw [hs, hl]
      have hlt : j < (σ k).workers.length := (List.getElem?_eq_some_iff.1 hw).1
      refine ⟨⟨hq, by dsimp only; rw [begun_cons_tx]; exact hlen⟩, ?_, ?_⟩
      · by_cases hji : j = i
        · subst hji; simp [blockRank, hw, List.getElem?_set_self hlt]
        · simp only [blockRank, List.getElem?_set_ne hji]; exact Nat.le_refl _
      · intro hji
        cases hji
        simp [blockRank, hw, List.getElem?_set_self hlt]
    · right
      rw [hs, hl]
      have hlt : j < (σ k).workers.length := (List.getElem?_eq_some_iff.1 hw).1
      refine ⟨⟨hq, by dsimp only; rw [begun_cons_reply]; exact hlen⟩, ?_, ?_⟩
      · by_cases hji : j = i
        · subst hji; simp [blockRank, hw, List.getElem?_set_self hlt]
        · simp only [blockRank, List.getElem?_set_ne hji]; exact Nat.le_refl _
      · intro hji
        cases hji
        cases w <;> simp [W.busy] at hb <;> simp [blockRank, hw, List.getElem?_set_self hlt]
  · intro k hall
    exact hf k fun m hm => can_step_block (by rw [len_workers h]; exact hi) (hall m hm).1.1

/-- C95. Let one worker not be held up for ever (its calls to the chain end). Then all blocks waiting at any moment of any
infinite execution are taken up later, in the order in which they came, whatever else arrives meanwhile. -/
theorem C95_blocks_served {σ : Nat → Pool.State} {ev : Nat → Pool.Label} (h : Pool.Exec σ ev) {i : Nat}
    (hi : i < (σ 0).workers.length) (hf : FairWorker σ ev i) (n : Nat) :
    ∃ m, n ≤ m ∧ blocksBegun (σ n).log ++ (σ n).blockQ <+: blocksBegun (σ m).log := by
  obtain ⟨T, hT⟩ : ∃ T, T = (blocksBegun (σ n).log ++ (σ n).blockQ).length := ⟨_, rfl⟩
  have key : ∀ d k, n ≤ k → T ≤ (blocksBegun (σ k).log).length + d → ∃ m, k ≤ m ∧ T ≤ (blocksBegun (σ m).log).length := by
    intro d
    induction d with
    | zero => intro k _ hk; exact ⟨k, Nat.le_refl _, hk⟩
    | succ d ih =>
      intro k hk hd
      by_cases hdone : T ≤ (blocksBegun (σ k).log).length
      · exact ⟨k, Nat.le_refl _, hdone⟩
      · obtain ⟨e, rfl⟩ := Nat.exists_eq_add_of_le hk
        have hpre := (fifo_exec h n e).1.length_le
        rw [← hT, List.length_append] at hpre
        have hq : (σ (n + e)).blockQ ≠ [] := by
          intro h0; rw [h0] at hpre; simp at hpre; omega
        obtain ⟨k', hk', hlt⟩ := next_block h hi hf (n + e) hq
        obtain ⟨m, hm, hT⟩ := ih k' (by omega) (by omega)
        exact ⟨m, by omega, hT⟩
  obtain ⟨m, hm, hlen⟩ := key T n (Nat.le_refl _) (by omega)
  refine ⟨m, hm, ?_⟩
  obtain ⟨e, rfl⟩ := Nat.exists_eq_add_of_le hm
  exact List.prefix_of_prefix_length_le (fifo_exec h n e).1 (List.prefix_append _ _) (by omega)

/- An infinite execution with one worker: blocks keep arriving, each is taken up and its call ends. -/
private def exLog : Nat → List Ev
  | 0 => []
  | k + 1 => .reply :: .block k :: exLog k

private def exState (n : Nat) : Pool.State :=
  if n % 3 = 0 then ⟨[.looking], [], [], exLog (n / 3)⟩
  else if n % 3 = 1 then ⟨[.looking], [n / 3], [], exLog (n / 3)⟩
  else ⟨[.block (n / 3)], [], [], .block (n / 3) :: exLog (n / 3)⟩

private def exEv (n : Nat) : Pool.Label :=
  if n % 3 = 0 then .sendBlock (n / 3) else if n % 3 = 1 then .look 0 else .reply 0

private theorem ex_exec : Pool.Exec exState exEv := by
  intro n
  obtain ⟨k, r, hr, rfl⟩ : ∃ k r, r < 3 ∧ n = 3 * k + r := ⟨n / 3, n % 3, Nat.mod_lt _ (by omega), by omega⟩
  have hd : (3 * k + r) / 3 = k := by omega
  have hm : (3 * k + r) % 3 = r := by omega
  match r, hr with
  | 0, _ =>
    have hd' : (3 * k + 0 + 1) / 3 = k := by omega
    have hm' : (3 * k + 0 + 1) % 3 = 1 := by omega
    simp only [exState, exEv, hd, hm, hd', hm']
    rfl
  | 1, _ =>
    have hd' : (3 * k + 1 + 1) / 3 = k := by omega
    have hm' : (3 * k + 1 + 1) % 3 = 2 := by omega
    simp only [exState, exEv, hd, hm, hd', hm']
    rfl
  | 2, _ =>
    have hd' : (3 * k + 2 + 1) / 3 = k + 1 := by omega
    have hm' : (3 * k + 2 + 1) % 3 = 0 := by omega
    simp only [exState, exEv, hd, hm, hd', hm']
    rfl

private theorem ex_fair : FairWorker exState exEv 0 := by
  intro n _
  refine ⟨3 * n + 1, by omega, ?_⟩
  have hm : (3 * n + 1) % 3 = 1 := by omega
  simp only [exEv, hm]
  rfl

example : Pool.Exec exState exEv ∧ FairWorker exState exEv 0 ∧ 0 < (exState 0).workers.length ∧ (exState 1).blockQ = [0] :=
  ⟨ex_exec, ex_fair, by decide, by decide⟩

/-! ### C85: transactions, once no more blocks arrive -/

/-- How far worker `i` is from waiting for a transaction. -/
private def txRank (i : Nat) (s : Pool.State) : Nat :=
  match s.workers[i]? with
  | some .idle => 0
  | some .looking => 1
  | _ => 2

private theorem can_step_tx {i : Nat} {s : Pool.State} (hi : i < s.workers.length) (hb : s.blockQ = []) (hq : s.txQ ≠ []) :
    ∃ x, Pool.Of i x ∧ (Pool.step s x).isSome = true := by
  obtain ⟨w, hw⟩ : ∃ w, s.workers[i]? = some w := ⟨_, List.getElem?_eq_getElem hi⟩
  obtain ⟨n, rest, hq⟩ := List.exists_cons_of_ne_nil hq
  cases w with
  | looking => exact ⟨.look i, rfl, by simp [Pool.step, hw, hb]⟩
  | idle => exact ⟨.grabTx i, rfl, by simp [Pool.step, hw, hq]⟩
  | block k => exact ⟨.reply i, rfl, by simp [Pool.step, hw]⟩
  | tx k => exact ⟨.reply i, rfl, by simp [Pool.step, hw]⟩

private theorem next_tx {σ : Nat → Pool.State} {ev : Nat → Pool.Label} (h : Pool.Exec σ ev) {i : Nat}
    (hi : i < (σ 0).workers.length) (hf : FairWorker σ ev i) (hno : ∀ k n, ev k ≠ .sendBlock n)
    (hb0 : (σ 0).blockQ = []) (n : Nat) (hq : (σ n).txQ ≠ []) :
    ∃ m, n ≤ m ∧ (txsTaken (σ n).log).length < (txsTaken (σ m).log).length := by
  have hb : ∀ k, (σ k).blockQ = [] := by
    intro k
    induction k with
    | zero => exact hb0
    | succ k ih =>
      have := (fifo_step (h k)).2.2.2.2.2 (hno k)
      have hp := (fifo_step (h k)).2.1.length_le
      have hl := congrArg List.length this
      rw [ih] at hl
      simp only [List.length_append, List.length_nil] at hl
      exact List.eq_nil_of_length_eq_zero (by omega)
  obtain ⟨c, hc⟩ : ∃ c, c = (txsTaken (σ n).log).length := ⟨_, rfl⟩
  rw [← hc]
  refine leads_to (ev := ev) (txRank i) (fun s => s.txQ ≠ [] ∧ (txsTaken s.log).length = c)
    (fun s => c < (txsTaken s.log).length) (fun _ l => Pool.Of i l) ?_ ?_ n ⟨hq, hc.symm⟩
  · intro k ⟨hq, hlen⟩ _
    rcases step_forms (h k) with ⟨n, hl, hs⟩ | ⟨n, hl, hs⟩ | ⟨j, n, rest, w, hl, _, _, hq', hs⟩ | ⟨j, hl, hw, hq', hs⟩ |
      ⟨j, n, rest, hl, hw, hq', hs⟩ | ⟨j, w, hl, hw, hbz, hs⟩
    · exact absurd hl (hno k n)
    · right; rw [hs, hl]; exact ⟨⟨by simp, hlen⟩, Nat.le_refl _, fun hc => hc.elim⟩
    · rw [hb k] at hq'; cases hq'
    · right
      rw [hs, hl]
      have hlt : j < (σ k).workers.length := (List.getElem?_eq_some_iff.1 hw).1
      refine ⟨⟨hq, hlen⟩, ?_, ?_⟩
      · by_cases hji : j = i
        · subst hji; simp [txRank, hw, List.getElem?_set_self hlt]
        · simp only [txRank, List.getElem?_set_ne hji]; exact Nat.le_refl _
      · intro hji
        cases hji
        simp [txRank, hw, List.getElem?_set_self hlt]
    · left; rw [hs]; dsimp only; rw [taken_cons_tx]; simp [hlen]
    · right
      rw [hs, hl]
      have hlt : j < (σ k).workers.length := (List.getElem?_eq_some_iff.1 hw).1
      refine ⟨⟨hq, by dsimp only; rw [taken_cons_reply]; exact hlen⟩, ?_, ?_⟩
      · by_cases hji : j = i
        · subst hji
          cases w <;> simp [W.busy] at hbz <;> simp [txRank, hw, List.getElem?_set_self hlt]
        · simp only [txRank, List.getElem?_set_ne hji]; exact Nat.le_refl _
      · intro hji
        cases hji
        cases w <;> simp [W.busy] at hbz <;> simp [txRank, hw, List.getElem?_set_self hlt]
  · intro k hall
    exact hf k fun m hm => can_step_tx (by rw [len_workers h]; exact hi) (hb m) (hall m hm).1.1

private theorem shift_exec {σ : Nat → Pool.State} {ev : Nat → Pool.Label} (h : Pool.Exec σ ev) (k : Nat) :
    Pool.Exec (fun n => σ (k + n)) (fun n => ev (k + n)) := fun n => h (k + n)

private theorem shift_fair {σ : Nat → Pool.State} {ev : Nat → Pool.Label} {i : Nat} (h : FairWorker σ ev i) (k : Nat) :
    FairWorker (fun n => σ (k + n)) (fun n => ev (k + n)) i := by
  intro n hall
  obtain ⟨m, hm, ho⟩ := h (k + n) (fun m hm => by
    have := hall (m - k) (by omega)
    dsimp only at this
    rwa [show k + (m - k) = m from by omega] at this)
  refine ⟨m - k, by omega, ?_⟩
  dsimp only
  rwa [show k + (m - k) = m from by omega]

/-- C85 where it holds, under fairness: when from some moment on no block arrives any more, all transactions waiting then (or
at any later moment) are taken up, in the order in which they came. -/
theorem C85_fair_partial {σ : Nat → Pool.State} {ev : Nat → Pool.Label} (h : Pool.Exec σ ev) {i : Nat}
    (hi : i < (σ 0).workers.length) (hf : FairWorker σ ev i) (n : Nat) (hno : ∀ k, n ≤ k → ∀ b, ev k ≠ .sendBlock b) :
    ∃ m, n ≤ m ∧ txsTaken (σ n).log ++ (σ n).txQ <+: txsTaken (σ m).log := by
  obtain ⟨m0, hm0, hpre⟩ := C95_blocks_served h hi hf n
  obtain ⟨e, rfl⟩ := Nat.exists_eq_add_of_le hm0
  have hconst : ∀ d, blocksBegun (σ n).log ++ (σ n).blockQ = blocksBegun (σ (n + d)).log ++ (σ (n + d)).blockQ := by
    intro d
    induction d with
    | zero => rfl
    | succ d ih => exact ih.trans ((fifo_step (h (n + d))).2.2.2.2.2 (hno _ (by omega)))
  have hb : (σ (n + e)).blockQ = [] := by
    have h1 := congrArg List.length (hconst e)
    have h2 := hpre.length_le
    rw [h1, List.length_append] at h2
    exact List.eq_nil_of_length_eq_zero (by omega)
  obtain ⟨τ, hτ⟩ : ∃ τ : Nat → Pool.State, τ = fun k => σ (n + e + k) := ⟨_, rfl⟩
  have hx : Pool.Exec τ (fun k => ev (n + e + k)) := hτ ▸ shift_exec h (n + e)
  have hfx : FairWorker τ (fun k => ev (n + e + k)) i := hτ ▸ shift_fair hf (n + e)
  have hix : i < (τ 0).workers.length := by rw [hτ]; dsimp only; rw [len_workers h]; exact hi
  have hbx : (τ 0).blockQ = [] := by rw [hτ]; exact hb
  obtain ⟨T, hT⟩ : ∃ T, T = (txsTaken (σ n).log ++ (σ n).txQ).length := ⟨_, rfl⟩
  have hge : ∀ k, T ≤ (txsTaken (τ k).log ++ (τ k).txQ).length := by
    intro k
    have := (fifo_exec h n (e + k)).2.2.1.length_le
    rw [hT, hτ]; dsimp only; rw [Nat.add_assoc]; exact this
  have key : ∀ d k, T ≤ (txsTaken (τ k).log).length + d → ∃ m, k ≤ m ∧ T ≤ (txsTaken (τ m).log).length := by
    intro d
    induction d with
    | zero => intro k hk; exact ⟨k, Nat.le_refl _, hk⟩
    | succ d ih =>
      intro k hd
      by_cases hdone : T ≤ (txsTaken (τ k).log).length
      · exact ⟨k, Nat.le_refl _, hdone⟩
      · have hq : (τ k).txQ ≠ [] := by
          intro h0
          have := hge k
          rw [h0] at this; simp at this; omega
        obtain ⟨k', hk', hlt⟩ := next_tx hx hix hfx (fun j b => hno _ (by omega) b) hbx k hq
        obtain ⟨m, hm, hT⟩ := ih k' (by omega)
        exact ⟨m, by omega, hT⟩
  obtain ⟨m, _, hlen⟩ := key T 0 (by omega)
  refine ⟨n + e + m, by omega, ?_⟩
  rw [hτ] at hlen
  have hp := (fifo_exec h n (e + m)).2.2.1
  rw [← Nat.add_assoc] at hp
  exact List.prefix_of_prefix_length_le hp (List.prefix_append _ _) (by dsimp only at hlen; omega)

/- One worker takes one transaction after another; no block arrives. -/
private def exLogTx : Nat → List Ev
  | 0 => []
  | k + 1 => .reply :: .tx k :: exLogTx k

private def exStateTx (n : Nat) : Pool.State :=
  if n % 4 = 0 then ⟨[.looking], [], [], exLogTx (n / 4)⟩
  else if n % 4 = 1 then ⟨[.looking], [], [n / 4], exLogTx (n / 4)⟩
  else if n % 4 = 2 then ⟨[.idle], [], [n / 4], exLogTx (n / 4)⟩
  else ⟨[.tx (n / 4)], [], [], .tx (n / 4) :: exLogTx (n / 4)⟩

private def exEvTx (n : Nat) : Pool.Label :=
  if n % 4 = 0 then .sendTx (n / 4) else if n % 4 = 1 then .look 0 else if n % 4 = 2 then .grabTx 0 else .reply 0

private theorem exTx_exec : Pool.Exec exStateTx exEvTx := by
  intro n
  obtain ⟨k, r, hr, rfl⟩ : ∃ k r, r < 4 ∧ n = 4 * k + r := ⟨n / 4, n % 4, Nat.mod_lt _ (by omega), by omega⟩
  have hd : (4 * k + r) / 4 = k := by omega
  have hm : (4 * k + r) % 4 = r := by omega
  match r, hr with
  | 0, _ =>
    have hd' : (4 * k + 0 + 1) / 4 = k := by omega
    have hm' : (4 * k + 0 + 1) % 4 = 1 := by omega
    simp only [exStateTx, exEvTx, hd, hm, hd', hm']
    rfl
  | 1, _ =>
    have hd' : (4 * k + 1 + 1) / 4 = k := by omega
    have hm' : (4 * k + 1 + 1) % 4 = 2 := by omega
    simp only [exStateTx, exEvTx, hd, hm, hd', hm']
    rfl
  | 2, _ =>
    have hd' : (4 * k + 2 + 1) / 4 = k := by omega
    have hm' : (4 * k + 2 + 1) % 4 = 3 := by omega
    simp only [exStateTx, exEvTx, hd, hm, hd', hm']
    rfl
  | 3, _ =>
    have hd' : (4 * k + 3 + 1) / 4 = k + 1 := by omega
    have hm' : (4 * k + 3 + 1) % 4 = 0 := by omega
    simp only [exStateTx, exEvTx, hd, hm, hd', hm']
    rfl

example : Pool.Exec exStateTx exEvTx ∧ FairWorker exStateTx exEvTx 0 ∧ (∀ k b, exEvTx k ≠ .sendBlock b) ∧
    (exStateTx 1).txQ = [0] := by
  refine ⟨exTx_exec, ?_, ?_, by decide⟩
  · intro n _
    refine ⟨4 * n + 1, by omega, ?_⟩
    have hm : (4 * n + 1) % 4 = 1 := by omega
    simp only [exEvTx, hm]
    rfl
  · intro k b h
    simp only [exEvTx] at h
    split at h
    · cases h
    · split at h
      · cases h
      · split at h <;> cases h

/-! ### Nothing is lost, doubled or reordered on the way to a worker -/

/-- C95. What has been sent to the workers is what they have taken up followed by what waits, in order: nothing is lost,
doubled or reordered, and nothing is taken up that was not sent. -/
theorem C95_nothing_lost (jobs : Nat) (ls : List Pool.Label) (s : Pool.State)
    (hr : Pool.run (Pool.init jobs) ls = some s) :
    blocksSent ls = blocksBegun s.log ++ s.blockQ ∧ txsSent ls = txsTaken s.log ++ s.txQ := by
  have key : ∀ (ls : List Pool.Label) (s0 : Pool.State), Pool.run s0 ls = some s →
      (blocksBegun s0.log ++ s0.blockQ) ++ blocksSent ls = blocksBegun s.log ++ s.blockQ ∧
      (txsTaken s0.log ++ s0.txQ) ++ txsSent ls = txsTaken s.log ++ s.txQ := by
    intro ls
    induction ls with
    | nil => intro s0 h; cases h; simp [blocksSent, txsSent]
    | cons l ls ih =>
      intro s0 h
      simp only [Pool.run] at h
      split at h
      · rename_i s1 h1
        obtain ⟨ihb, iht⟩ := ih s1 h
        rw [← ihb, ← iht]
        rcases step_forms h1 with ⟨n, rfl, rfl⟩ | ⟨n, rfl, rfl⟩ | ⟨i, n, rest, w, hl, _, _, hq, rfl⟩ | ⟨i, rfl, _, hq, rfl⟩ |
          ⟨i, n, rest, rfl, _, hq, rfl⟩ | ⟨i, w, rfl, _, _, rfl⟩
        · simp [blocksSent, txsSent]
        · simp [blocksSent, txsSent]
        · rcases hl with rfl | rfl <;> simp [blocksSent, txsSent, begun_cons_block, taken_cons_block, hq]
        · simp [blocksSent, txsSent]
        · simp [blocksSent, txsSent, begun_cons_tx, taken_cons_tx, hq]
        · simp [blocksSent, txsSent, begun_cons_reply, taken_cons_reply]
      · cases h
  have := key ls _ hr
  simpa [Pool.init, blocksBegun, txsTaken] using this

/-- C95. Every block sent to the workers is taken up, if one worker is not held up for ever. -/
theorem C95_sent_served {σ : Nat → Pool.State} {ev : Nat → Pool.Label} (h : Pool.Exec σ ev) {i : Nat}
    (hi : i < (σ 0).workers.length) (hf : FairWorker σ ev i) (n b : Nat) (he : ev n = .sendBlock b) :
    ∃ m, n < m ∧ b ∈ blocksBegun (σ m).log := by
  obtain ⟨m, hm, hp⟩ := C95_blocks_served h hi hf (n + 1)
  refine ⟨m, hm, hp.subset ?_⟩
  have hs := h n
  rw [he] at hs
  rw [← Option.some.inj hs]
  simp

/-- C85 under fairness, for what is sent: a transaction sent when no block arrives any more is taken up. -/
theorem C85_sent_partial {σ : Nat → Pool.State} {ev : Nat → Pool.Label} (h : Pool.Exec σ ev) {i : Nat}
    (hi : i < (σ 0).workers.length) (hf : FairWorker σ ev i) (n x : Nat) (he : ev n = .sendTx x)
    (hno : ∀ k, n < k → ∀ b, ev k ≠ .sendBlock b) : ∃ m, n < m ∧ x ∈ txsTaken (σ m).log := by
  obtain ⟨m, hm, hp⟩ := C85_fair_partial h hi hf (n + 1) fun k hk b => hno k hk b
  refine ⟨m, hm, hp.subset ?_⟩
  have hs := h n
  rw [he] at hs
  rw [← Option.some.inj hs]
  simp

example : (Pool.run (Pool.init 1) [.sendBlock 5, .sendTx 6, .sendBlock 7, .look 0, .reply 0]).map
    (fun s => (blocksBegun s.log, s.blockQ, txsTaken s.log, s.txQ)) = some ([5], [7], [], [6]) := by decide +kernel

/- The execution of the example above: transaction 0 is sent in the first step. -/
example : Pool.Exec exStateTx exEvTx ∧ exEvTx 0 = .sendTx 0 ∧ 0 ∈ txsTaken (exStateTx 3).log := ⟨exTx_exec, rfl, by decide⟩

end KP2P

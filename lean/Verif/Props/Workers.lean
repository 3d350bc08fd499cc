import Verif.Model.Workers
import Mathlib.Data.List.Basic
import Mathlib.Order.Basic
import Mathlib.Data.Nat.Basic
import Mathlib.Order.Defs.PartialOrder
/-!
# C83, C84, C85: the worker pool
-/

namespace KP2P
open KP2P.Pool

private theorem countP_set {α : Type} (p : α → Bool) : ∀ (l : List α) (i : Nat) (a b : α), l[i]? = some a →
    (l.set i b).countP p + (if p a then 1 else 0) = l.countP p + (if p b then 1 else 0) := by
  intro l
  induction l with
  | nil => intro i a b h; cases h
  | cons x l ih =>
    intro i a b h
    cases i with
    | zero =>
      cases h
      simp only [List.set_cons_zero, List.countP_cons]
      omega
    | succ i =>
      have := ih i a b h
      simp only [List.set_cons_succ, List.countP_cons]
      omega

private theorem pool_run_append (s : Pool.State) (a b : List Pool.Label) :
    Pool.run s (a ++ b) = (Pool.run s a).bind fun s' => Pool.run s' b := by
  induction a generalizing s with
  | nil => rfl
  | cons l a ih =>
    simp only [List.cons_append, Pool.run]
    cases Pool.step s l with
    | none => rfl
    | some s' => exact ih s'

private theorem pool_ind {P : Pool.State → Prop} (hstep : ∀ s l s', P s → Pool.step s l = some s' → P s') :
    ∀ (ls : List Pool.Label) (s s' : Pool.State), P s → Pool.run s ls = some s' → P s' := by
  intro ls
  induction ls with
  | nil => intro s s' h hr; cases hr; exact h
  | cons l ls ih =>
    intro s s' h hr
    simp only [Pool.run] at hr
    split at hr
    · rename_i s1 h1; exact ih s1 s' (hstep s l s1 h h1) hr
    · cases hr

/-! ### C83: calls that are never answered -/

/-- The number of calls taken up. -/
def begun (log : List Ev) : Nat := log.countP fun e => e != .reply

/-- The number of calls answered. -/
def ended (log : List Ev) : Nat := log.countP fun e => e == .reply

private theorem busy_step (jobs : Nat) (s : Pool.State) (l : Pool.Label) (s' : Pool.State)
    (h : s.workers.length = jobs ∧ begun s.log = ended s.log + s.workers.countP W.busy) (hs : Pool.step s l = some s') :
    s'.workers.length = jobs ∧ begun s'.log = ended s'.log + s'.workers.countP W.busy := by
  obtain ⟨h1, h2⟩ := h
  cases l <;> simp only [Pool.step] at hs
  case sendBlock n => cases hs; exact ⟨h1, h2⟩
  case sendTx n => cases hs; exact ⟨h1, h2⟩
  case look i =>
    split at hs
    · rename_i hw
      split at hs
      · rename_i n rest hq
        cases hs
        have := countP_set W.busy s.workers i .looking (.block n) hw
        refine ⟨by simpa using h1, ?_⟩
        simp [begun, ended, W.busy] at this h2 ⊢
        omega
      · cases hs
        have := countP_set W.busy s.workers i .looking .idle hw
        refine ⟨by simpa using h1, ?_⟩
        simp [W.busy] at this h2 ⊢
        omega
    · cases hs
  case grabBlock i =>
    split at hs
    · rename_i n rest hw hq
      cases hs
      have := countP_set W.busy s.workers i .idle (.block n) hw
      refine ⟨by simpa using h1, ?_⟩
      simp [begun, ended, W.busy] at this h2 ⊢
      omega
    · cases hs
  case grabTx i =>
    split at hs
    · rename_i n rest hw hq
      cases hs
      have := countP_set W.busy s.workers i .idle (.tx n) hw
      refine ⟨by simpa using h1, ?_⟩
      simp [begun, ended, W.busy] at this h2 ⊢
      omega
    · cases hs
  case reply i =>
    split at hs
    · rename_i n hw
      cases hs
      have := countP_set W.busy s.workers i (.block n) .looking hw
      refine ⟨by simpa using h1, ?_⟩
      simp [begun, ended, W.busy] at this h2 ⊢
      omega
    · rename_i n hw
      cases hs
      have := countP_set W.busy s.workers i (.tx n) .looking hw
      refine ⟨by simpa using h1, ?_⟩
      simp [begun, ended, W.busy] at this h2 ⊢
      omega
    · cases hs

private theorem busy_reach {jobs : Nat} {s : Pool.State} (h : Pool.Reachable jobs s) :
    s.workers.length = jobs ∧ begun s.log = ended s.log + s.workers.countP W.busy := by
  obtain ⟨ls, hr⟩ := h
  refine pool_ind (fun s l s' => busy_step jobs s l s') ls _ s ?_ hr
  refine ⟨by simp [Pool.init], ?_⟩
  have : (List.replicate jobs W.looking).countP W.busy = 0 := by
    rw [List.countP_eq_zero]
    intro x hx
    rw [List.eq_of_mem_replicate hx]; decide
  simp [Pool.init, begun, ended, this]

/-- C83. At no moment are more than `ApplicationJobs` calls to the chain unanswered. -/
theorem C83_concurrency_partial (jobs : Nat) (s : Pool.State) (h : Pool.Reachable jobs s) :
    begun s.log ≤ ended s.log + jobs := by
  obtain ⟨h1, h2⟩ := busy_reach h
  have := s.workers.countP_le_length (p := W.busy)
  omega

/-- The claim: calls that are not answered do not keep others from being made; a block that waits can be taken up
without any further reply. -/
def LostRepliesHarmless (jobs : Nat) : Prop :=
  ∀ s, Pool.Reachable jobs s → ∀ n rest, s.blockQ = n :: rest →
    ∃ ls s', (∀ i, Pool.Label.reply i ∉ ls) ∧ Pool.run s ls = some s' ∧ Ev.block n ∈ s'.log.take (s'.log.length - s.log.length)

/-- C83 where it fails, for every continuation: once all workers wait for the chain, nothing is taken up any more, neither a
block nor a transaction, until one of those calls ends. -/
theorem C83_all_stuck_partial (s s' : Pool.State) (hb : ∀ w ∈ s.workers, W.busy w = true) (ls : List Pool.Label)
    (hno : ∀ i, Pool.Label.reply i ∉ ls) (hr : Pool.run s ls = some s') :
    s'.log = s.log ∧ s'.workers = s.workers ∧ s.blockQ <+: s'.blockQ ∧ s.txQ <+: s'.txQ := by
  induction ls generalizing s with
  | nil => cases hr; exact ⟨rfl, rfl, List.prefix_rfl, List.prefix_rfl⟩
  | cons l ls ih =>
    simp only [Pool.run] at hr
    split at hr
    · rename_i s1 h1
      have hno' : ∀ i, Pool.Label.reply i ∉ ls := fun i h => hno i (List.mem_cons_of_mem _ h)
      have hget : ∀ i w, s.workers[i]? = some w → W.busy w = true := fun i w h => hb w (List.mem_of_getElem? h)
      cases l <;> simp only [Pool.step] at h1
      case sendBlock n =>
        cases h1
        obtain ⟨a, b, c, d⟩ := ih { s with blockQ := s.blockQ ++ [n] } hb hno' hr
        exact ⟨a, b, (List.prefix_append _ _).trans c, d⟩
      case sendTx n =>
        cases h1
        obtain ⟨a, b, c, d⟩ := ih { s with txQ := s.txQ ++ [n] } hb hno' hr
        exact ⟨a, b, c, (List.prefix_append _ _).trans d⟩
      case look i =>
        split at h1
        · rename_i hw; have := hget i _ hw; cases this
        · cases h1
      case grabBlock i =>
        split at h1
        · rename_i hw hq; have := hget i _ hw; cases this
        · cases h1
      case grabTx i =>
        split at h1
        · rename_i hw hq; have := hget i _ hw; cases this
        · cases h1
      case reply i => exact absurd (List.mem_cons_self ..) (hno i)
    · cases hr

/-- `jobs` blocks are sent and taken up. -/
private theorem fill (jobs : Nat) : ∀ k, k ≤ jobs → ∃ ls, Pool.run (Pool.init jobs) ls = some
    { workers := List.replicate k (.block 0) ++ List.replicate (jobs - k) .looking, blockQ := [], txQ := []
      log := List.replicate k (.block 0) } := by
  intro k
  induction k with
  | zero => intro _; exact ⟨[], by simp [Pool.run, Pool.init]⟩
  | succ k ih =>
    intro hk
    obtain ⟨ls, hr⟩ := ih (by omega)
    refine ⟨ls ++ [.sendBlock 0, .look k], ?_⟩
    rw [pool_run_append, hr]
    have hget : (List.replicate k (W.block 0) ++ List.replicate (jobs - k) W.looking)[k]? = some .looking := by
      rw [List.getElem?_append_right (by simp), List.getElem?_replicate]
      simp only [List.length_replicate]
      rw [if_pos (by omega)]
    have hset : (List.replicate k (W.block 0) ++ List.replicate (jobs - k) W.looking).set k (.block 0) =
        List.replicate (k + 1) (W.block 0) ++ List.replicate (jobs - (k + 1)) W.looking := by
      rw [List.set_append_right _ _ (by simp)]
      have : jobs - k = (jobs - (k + 1)) + 1 := by omega
      rw [this, List.replicate_succ]
      simp [List.replicate_succ']
    simp only [Option.bind_some, Pool.run, Pool.step, List.nil_append]
    rw [hget]
    simp only [hset]
    simp [List.replicate_succ]

/-- C83 refuted for every number of workers: that many unanswered calls stop the application of blocks for good. -/
theorem C83_lost_replies_refuted (jobs : Nat) : ¬ LostRepliesHarmless jobs := by
  intro h
  obtain ⟨ls, hr⟩ := fill jobs jobs (Nat.le_refl _)
  simp only [Nat.sub_self, List.replicate_zero, List.append_nil] at hr
  have hr2 : Pool.run (Pool.init jobs) (ls ++ [.sendBlock 7]) = some
      { workers := List.replicate jobs (.block 0), blockQ := [7], txQ := [], log := List.replicate jobs (.block 0) } := by
    rw [pool_run_append, hr]; rfl
  obtain ⟨ls', s', hno, hrun, hin⟩ := h _ ⟨_, hr2⟩ 7 [] rfl
  have := (C83_all_stuck_partial _ s' (by
    intro w hw
    rw [List.eq_of_mem_replicate hw]; rfl) ls' hno hrun).1
  rw [this] at hin
  simp at hin

/-- C83 as far as it holds: while one worker is free, the first waiting block can be taken up without any reply. -/
theorem C83_free_worker_partial (s : Pool.State) (w : W) (hw : w ∈ s.workers) (hf : w.busy = false) (n : Nat)
    (rest : List Nat) (hq : s.blockQ = n :: rest) :
    ∃ i s', (Pool.run s [.look i] = some s' ∨ Pool.run s [.grabBlock i] = some s') ∧ s'.log = .block n :: s.log := by
  obtain ⟨i, hi, hg⟩ := List.getElem_of_mem hw
  have hget : s.workers[i]? = some w := by rw [List.getElem?_eq_getElem hi, hg]
  cases w with
  | looking =>
    refine ⟨i, { s with workers := s.workers.set i (.block n), blockQ := rest, log := .block n :: s.log }, Or.inl ?_, rfl⟩
    simp [Pool.run, Pool.step, hget, hq]
  | idle =>
    refine ⟨i, { s with workers := s.workers.set i (.block n), blockQ := rest, log := .block n :: s.log }, Or.inr ?_, rfl⟩
    simp [Pool.run, Pool.step, hget, hq]
  | block n => cases hf
  | tx n => cases hf

/- Two workers: both take a block, a third block waits. -/
example : (Pool.run (Pool.init 2) [.sendBlock 1, .sendBlock 2, .sendBlock 3, .look 0, .look 1]).map
    (fun s => (s.log, s.blockQ, s.workers.all W.busy)) = some ([.block 2, .block 1], [3], true) := by decide +kernel

/-! ### C84: transactions do not overtake blocks -/

/-- The transactions taken up. -/
def txsBegun (log : List Ev) : Nat := log.countP fun | .tx _ => true | _ => false

/-- A block waits in every state of the execution except possibly the last. -/
def BlockWaits (s : Pool.State) : List Pool.Label → Prop
  | [] => True
  | l :: ls => s.blockQ ≠ [] ∧ ∀ s', Pool.step s l = some s' → BlockWaits s' ls

private theorem idle_step (s s' : Pool.State) (l : Pool.Label) (hq : s.blockQ ≠ []) (hs : Pool.step s l = some s') :
    txsBegun s'.log + s'.workers.countP (· == .idle) ≤ txsBegun s.log + s.workers.countP (· == .idle) := by
  cases l <;> simp only [Pool.step] at hs
  case sendBlock n => cases hs; exact Nat.le_refl _
  case sendTx n => cases hs; exact Nat.le_refl _
  case look i =>
    split at hs
    · rename_i hw
      split at hs
      · rename_i n rest hq
        cases hs
        have := countP_set (· == W.idle) s.workers i .looking (.block n) hw
        simp [txsBegun] at this ⊢
        omega
      · rename_i h0; exact absurd h0 hq
    · cases hs
  case grabBlock i =>
    split at hs
    · rename_i n rest hw hq
      cases hs
      have := countP_set (· == W.idle) s.workers i .idle (.block n) hw
      simp [txsBegun] at this ⊢
      omega
    · cases hs
  case grabTx i =>
    split at hs
    · rename_i n rest hw hq
      cases hs
      have := countP_set (· == W.idle) s.workers i .idle (.tx n) hw
      simp [txsBegun] at this ⊢
      omega
    · cases hs
  case reply i =>
    split at hs
    · rename_i n hw
      cases hs
      have := countP_set (· == W.idle) s.workers i (.block n) .looking hw
      simp [txsBegun] at this ⊢
      omega
    · rename_i n hw
      cases hs
      have := countP_set (· == W.idle) s.workers i (.tx n) .looking hw
      simp [txsBegun] at this ⊢
      omega
    · cases hs

/-- C84. While some block waits for a worker, at most `ApplicationJobs` transactions are taken up, however long that lasts:
each worker at most one. -/
theorem C84_overtaking (jobs : Nat) (s s' : Pool.State) (h : Pool.Reachable jobs s) (ls : List Pool.Label)
    (hw : BlockWaits s ls) (hr : Pool.run s ls = some s') : txsBegun s'.log ≤ txsBegun s.log + jobs := by
  have key : ∀ (ls : List Pool.Label) (s : Pool.State), BlockWaits s ls → Pool.run s ls = some s' →
      txsBegun s'.log + s'.workers.countP (· == .idle) ≤ txsBegun s.log + s.workers.countP (· == .idle) := by
    intro ls
    induction ls with
    | nil => intro s _ hr; cases hr; exact Nat.le_refl _
    | cons l ls ih =>
      intro s hw hr
      simp only [Pool.run] at hr
      split at hr
      · rename_i s1 h1
        exact Nat.le_trans (ih s1 (hw.2 s1 h1) hr) (idle_step s s1 l hw.1 h1)
      · cases hr
  have h1 := key ls s hw hr
  have h2 := s.workers.countP_le_length (p := (· == .idle))
  rw [(busy_reach h).1] at h2
  omega

/-- C84. A worker that comes back from a call while a block waits takes a block, never a transaction. -/
theorem C84_blocks_first (s s' : Pool.State) (i : Nat) (hq : s.blockQ ≠ []) (hw : s.workers[i]? = some .looking)
    (hs : Pool.step s (.look i) = some s') : ∃ n rest, s.blockQ = n :: rest ∧ s'.log = .block n :: s.log := by
  simp only [Pool.step, hw] at hs
  cases hb : s.blockQ with
  | nil => exact absurd hb hq
  | cons n rest => rw [hb] at hs; cases hs; exact ⟨n, rest, rfl, rfl⟩

/- One overtaking, by a worker that saw no block when it looked. -/
private def exOver : Pool.State := ⟨[.idle], [5], [6], []⟩
example : Pool.run (Pool.init 1) [.look 0, .sendBlock 5, .sendTx 6] = some exOver := by decide +kernel
example : (Pool.run exOver [.grabTx 0]).map (fun s => txsBegun s.log) = some 1 := by decide +kernel
example : BlockWaits exOver [.grabTx 0] := ⟨by decide, fun _ _ => trivial⟩

/-! ### C85: transactions may starve -/

/-- The claim: there is a number of blocks after which a waiting transaction gets its turn. -/
def TxNotStarved (jobs k : Nat) : Prop :=
  ∀ s s', Pool.Reachable jobs s → s.txQ ≠ [] → ∀ ls, Pool.run s ls = some s' → txsBegun s'.log = txsBegun s.log →
    begun s'.log < begun s.log + k

/-- C85 refuted: with any positive number of workers and for every `k`, `k` blocks may be taken up while a transaction
waits. -/
theorem C85_starvation_refuted (jobs k : Nat) (hj : 0 < jobs) : ¬ TxNotStarved jobs k := by
  intro h
  let s : Pool.State := { workers := List.replicate jobs .looking, blockQ := [], txQ := [1], log := [] }
  have hs : Pool.Reachable jobs s := ⟨[.sendTx 1], rfl⟩
  have hget : (List.replicate jobs W.looking)[0]? = some .looking := by
    rw [List.getElem?_replicate, if_pos hj]
  have hset : (List.replicate jobs W.looking).set 0 (.block 0) = .block 0 :: List.replicate (jobs - 1) .looking := by
    have : jobs = (jobs - 1) + 1 := by omega
    rw [this, List.replicate_succ]; simp
  have key : ∀ k, ∃ ls s', Pool.run s ls = some s' ∧ s'.workers = List.replicate jobs .looking ∧ s'.blockQ = [] ∧
      txsBegun s'.log = 0 ∧ begun s'.log = k := by
    intro k
    induction k with
    | zero => exact ⟨[], s, rfl, rfl, rfl, rfl, rfl⟩
    | succ k ih =>
      obtain ⟨ls, s', hr, h1, h2, h3, h4⟩ := ih
      refine ⟨ls ++ [.sendBlock 0, .look 0, .reply 0],
        { s' with log := .reply :: .block 0 :: s'.log }, ?_, h1, h2, ?_, ?_⟩
      · rw [pool_run_append, hr]
        obtain ⟨w, q, t, g⟩ := s'
        dsimp only at h1 h2
        subst h1 h2
        have hback : (W.looking :: List.replicate (jobs - 1) W.looking) = List.replicate jobs .looking := by
          rw [← List.replicate_succ]; congr 1; omega
        simp only [Option.bind_some, Pool.run, Pool.step, List.nil_append, hget, hset, List.getElem?_cons_zero,
          List.set_cons_zero, hback]
      · simpa [txsBegun] using h3
      · simp [begun] at h4 ⊢; omega
  obtain ⟨ls, s', hr, _, _, h3, h4⟩ := key k
  have := h s s' hs (by simp [s]) ls hr (by rw [h3]; rfl)
  rw [h4] at this
  have h0 : begun s.log = 0 := rfl
  omega

/-- C85 as far as it holds: when no block waits, a free worker can take the first waiting transaction. -/
theorem C85_turn_partial (s : Pool.State) (w : W) (hw : w ∈ s.workers) (hf : w.busy = false) (hb : s.blockQ = [])
    (n : Nat) (rest : List Nat) (hq : s.txQ = n :: rest) :
    ∃ i s', (Pool.run s [.look i, .grabTx i] = some s' ∨ Pool.run s [.grabTx i] = some s') ∧ s'.log = .tx n :: s.log := by
  obtain ⟨i, hi, hg⟩ := List.getElem_of_mem hw
  have hget : s.workers[i]? = some w := by rw [List.getElem?_eq_getElem hi, hg]
  cases w with
  | looking =>
    refine ⟨i, { s with workers := (s.workers.set i .idle).set i (.tx n), txQ := rest, log := .tx n :: s.log },
      Or.inl ?_, rfl⟩
    have h2 : (s.workers.set i W.idle)[i]? = some .idle := by
      rw [List.getElem?_set_self hi]
    simp [Pool.run, Pool.step, hget, hb, hq, h2]
  | idle =>
    refine ⟨i, { s with workers := s.workers.set i (.tx n), txQ := rest, log := .tx n :: s.log }, Or.inr ?_, rfl⟩
    simp [Pool.run, Pool.step, hget, hq]
  | block n => cases hf
  | tx n => cases hf

example : (Pool.run (Pool.init 2) [.sendTx 4, .look 1, .grabTx 1]).map (fun s => (s.log, s.txQ)) =
    some ([.tx 4], []) := by decide +kernel

end KP2P

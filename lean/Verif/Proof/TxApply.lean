import Mathlib.Data.List.Perm.Subperm
import Mathlib.Tactic.Ring
import Mathlib.Data.List.Nodup
import Verif.Spec.TxApply
import Verif.Proof.TxCache
/-!
# Invariants of the transaction path
-/

namespace KP2P.TxA
open KP2P.Spec.TxA

theorem run_cons (s : State) (l : Label) (ls : List Label) :
    run s (l :: ls) = (step s l).bind fun s' => run s' ls := by
  show (match step s l with | some s' => run s' ls | none => none) = _
  cases step s l <;> rfl

theorem run_ind {P : State → Prop} (hstep : ∀ s l s', P s → step s l = some s' → P s')
    (ls : List Label) (s s' : State) (h : P s) (hr : run s ls = some s') : P s' := by
  induction ls generalizing s with
  | nil => cases hr; exact h
  | cons l ls ih =>
    rw [run_cons] at hr
    cases hs : step s l with
    | none => rw [hs] at hr; cases hr
    | some s1 => rw [hs] at hr; exact ih s1 (hstep s l s1 h hs) hr

theorem reachable_getD (dur now : Int) (ls : List Label) (d : State) (h : (run (init dur now) ls).isSome = true) :
    Reachable dur ((run (init dur now) ls).getD d) := by
  refine ⟨now, ls, ?_⟩
  cases hh : run (init dur now) ls with
  | none => rw [hh] at h; cases h
  | some s => rfl

/-- The cache history as calls with ids. -/
def hist (ps : List Pass) : List (Time × List Bytes) := ps.map fun p => (p.time, p.txs.map tid)

/-- The cache follows the specification log of the passes made so far. -/
structure CacheInv (dur start : Int) (s : State) : Prop where
  ok : s.crashed = false
  durEq : s.cache.dur = dur
  startLe : start ≤ s.now
  rel : TxCache.Rel s.cache (Spec.history dur (hist s.passes) []).1 s.now
  counts : s.passes.map Pass.count = (Spec.history dur (hist s.passes) []).2
  sorted : (s.passes.map Pass.time).Pairwise (· ≤ ·)
  past : ∀ p ∈ s.passes, start ≤ p.time ∧ p.time ≤ s.now

theorem cacheInv_init (dur now : Int) : CacheInv dur now (init dur now) :=
  ⟨rfl, rfl, Int.le_refl _, TxCache.rel_new dur now, rfl, List.Pairwise.nil, by simp [init]⟩

theorem cacheInv_pass {dur start : Int} {s : State} (h : CacheInv dur start s) (hd : 0 ≤ dur) (txs : List Tx) :
    ∃ c n, s.cache.checkTransactions s.now txs = some (c, n) ∧
      ∀ (s' : State) (r : Option Nat), s'.cache = c → s'.now = s.now → s'.passes = s.passes ++ [⟨s.now, txs, r, n⟩] →
        s'.crashed = false → CacheInv dur start s' := by
  obtain ⟨c', h1, h2, h3, h4⟩ := TxCache.check_rel s.cache s.now s.now txs _ (by rw [h.durEq]; exact hd) h.rel
    (Int.le_refl _)
  refine ⟨c', _, h1, ?_⟩
  intro s' r e1 e2 e3 e4
  rw [h.durEq] at h2 h4
  have hh : hist s'.passes = hist s.passes ++ [(s.now, txs.map tid)] := by rw [e3]; simp [hist]
  refine ⟨e4, by rw [e1]; exact h2, by rw [e2]; exact h.startLe, ?_, ?_, ?_, ?_⟩
  · rw [e1, e2, hh, Spec.history_append]; exact h4
  · rw [hh, Spec.history_append, e3, List.map_append, h.counts, h.durEq]; rfl
  · rw [e3, List.map_append, List.pairwise_append]
    refine ⟨h.sorted, List.pairwise_singleton _ _, ?_⟩
    intro a ha b hb
    obtain ⟨p, hp, rfl⟩ := List.mem_map.1 ha
    simp only [List.map_cons, List.map_nil, List.mem_singleton] at hb
    rw [hb]; exact (h.past p hp).2
  · intro p hp
    rw [e3] at hp
    rw [e2]
    rcases List.mem_append.1 hp with hp | hp
    · exact h.past p hp
    · rw [List.mem_singleton.1 hp]; exact ⟨h.startLe, Int.le_refl _⟩

theorem rel_later {c : TxCache} {log : List Spec.Obs} {p q : Time} (h : TxCache.Rel c log p) (hq : p ≤ q) :
    TxCache.Rel c log q := by
  refine ⟨h.inv, fun it hit => Int.le_trans (h.le it hit) hq, h.sound, ?_⟩
  intro o ho hf
  rcases h.compl o ho hf with h1 | h1
  · exact Or.inl h1
  · exact Or.inr (by omega)

theorem cacheInv_same {dur start : Int} {s s' : State} (h : CacheInv dur start s) (e1 : s'.cache = s.cache)
    (e2 : s'.now = s.now) (e3 : s'.passes = s.passes) (e4 : s'.crashed = s.crashed) : CacheInv dur start s' :=
  ⟨by rw [e4]; exact h.ok, by rw [e1]; exact h.durEq, by rw [e2]; exact h.startLe, by rw [e1, e2, e3]; exact h.rel,
    by rw [e3]; exact h.counts, by rw [e3]; exact h.sorted, by rw [e3, e2]; exact h.past⟩

/-- What one step does to the fields. -/
inductive Eff (s : State) : State → Prop
  | call (tx : Tx) : Eff s { s with
      queue := s.queue ++ [(s.nextReq, tx)], waiting := s.nextReq :: s.waiting, nextReq := s.nextReq + 1,
      log := .call s.nextReq tx :: s.log }
  | crash (txs : List Tx) (h : s.cache.checkTransactions s.now txs = none) : Eff s { s with crashed := true }
  | admit (i r : Nat) (tx : Tx) (c : TxCache) (hq : s.queue[i]? = some (r, tx))
      (hc : s.cache.checkTransactions s.now [tx] = some (c, 0)) : Eff s { s with
        cache := c, queue := s.queue.eraseIdx i, passes := s.passes ++ [⟨s.now, [tx], some r, 0⟩],
        jobs := s.jobs ++ [⟨r, tx, .admitted⟩] }
  | hit (i r : Nat) (tx : Tx) (c : TxCache) (n : Nat) (hq : s.queue[i]? = some (r, tx))
      (hc : s.cache.checkTransactions s.now [tx] = some (c, n)) (hn : n ≠ 0) : Eff s { s with
        cache := c, queue := s.queue.eraseIdx i, passes := s.passes ++ [⟨s.now, [tx], some r, n⟩],
        log := .answer r none :: s.log }
  | submit (i r : Nat) (tx : Tx) (hj : s.jobs[i]? = some ⟨r, tx, .admitted⟩) : Eff s { s with
      jobs := s.jobs.set i ⟨r, tx, .inRPC⟩, log := .submit r tx s.now :: s.log }
  | rpcReturn (i r : Nat) (tx : Tx) (e : Option Err) (hj : s.jobs[i]? = some ⟨r, tx, .inRPC⟩) : Eff s { s with
      jobs := s.jobs.eraseIdx i, log := .answer r e :: .verdict r tx e :: s.log }
  | broadcast (txs : List Tx) (c : TxCache) (n : Nat) (hc : s.cache.checkTransactions s.now txs = some (c, n)) :
      Eff s { s with cache := c, passes := s.passes ++ [⟨s.now, txs, none, n⟩] }
  | callerReturns (r : Nat) (e : Option Err) (hw : r ∈ s.waiting) (ha : answerOf s.log r = some e) : Eff s { s with
      waiting := s.waiting.erase r, log := .returned r e :: s.log }
  | callerGivesUp (r : Nat) (e : Err) (hw : r ∈ s.waiting) : Eff s { s with
      waiting := s.waiting.erase r, log := .returned r (some e) :: s.log }
  | tick (d : Nat) : Eff s { s with now := s.now + d }

theorem step_eff {s s' : State} {l : Label} (h : step s l = some s') : Eff s s' := by
  cases l with
  | call tx => cases h; exact .call tx
  | work i =>
    simp only [step] at h
    split at h
    · cases h
    · rename_i r tx hq
      split at h
      · rename_i hc; cases h; exact .crash _ hc
      · rename_i c n hc
        split at h
        · rename_i hn; subst hn; cases h; exact .admit i r tx c hq hc
        · rename_i hn; cases h; exact .hit i r tx c n hq hc hn
  | submit i =>
    simp only [step] at h
    split at h
    · rename_i r tx hj; cases h; exact .submit i r tx hj
    · cases h
  | rpcReturn i e =>
    simp only [step] at h
    split at h
    · rename_i r tx hj; cases h; exact .rpcReturn i r tx e hj
    · cases h
  | broadcast txs =>
    simp only [step] at h
    split at h
    · rename_i hc; cases h; exact .crash _ hc
    · rename_i c n hc; cases h; exact .broadcast txs c n hc
  | callerReturns r =>
    simp only [step] at h
    split at h
    · rename_i hw
      split at h
      · rename_i e ha; cases h; exact .callerReturns r e hw ha
      · cases h
    · cases h
  | callerGivesUp r e =>
    simp only [step] at h
    split at h
    · rename_i hw; cases h; exact .callerGivesUp r e hw
    · cases h
  | tick d => cases h; exact .tick d

theorem cacheInv_step {dur start : Int} (hd : 0 ≤ dur) {s s' : State} (h : CacheInv dur start s) (he : Eff s s') :
    CacheInv dur start s' := by
  cases he with
  | call tx => exact cacheInv_same h rfl rfl rfl rfl
  | crash txs hc =>
    obtain ⟨c, n, h1, _⟩ := cacheInv_pass h hd txs
    rw [hc] at h1; cases h1
  | admit i r tx c hq hc =>
    obtain ⟨c', n, h1, h2⟩ := cacheInv_pass h hd [tx]
    rw [hc] at h1; cases h1
    exact h2 _ (some r) rfl rfl rfl h.ok
  | hit i r tx c n hq hc hn =>
    obtain ⟨c', n, h1, h2⟩ := cacheInv_pass h hd [tx]
    rw [hc] at h1; cases h1
    exact h2 _ (some r) rfl rfl rfl h.ok
  | submit i r tx hj => exact cacheInv_same h rfl rfl rfl rfl
  | rpcReturn i r tx e hj => exact cacheInv_same h rfl rfl rfl rfl
  | broadcast txs c n hc =>
    obtain ⟨c', n, h1, h2⟩ := cacheInv_pass h hd txs
    rw [hc] at h1; cases h1
    exact h2 _ none rfl rfl rfl h.ok
  | callerReturns r e hw ha => exact cacheInv_same h rfl rfl rfl rfl
  | callerGivesUp r e hw => exact cacheInv_same h rfl rfl rfl rfl
  | tick d =>
    have hle : s.now ≤ s.now + (d : Int) := by omega
    exact ⟨h.ok, h.durEq, Int.le_trans h.startLe hle, rel_later h.rel hle, h.counts, h.sorted,
      fun p hp => ⟨(h.past p hp).1, Int.le_trans (h.past p hp).2 hle⟩⟩

theorem cacheInv_run {dur : Int} (hd : 0 ≤ dur) {now : Int} {ls : List Label} {s : State}
    (hr : run (init dur now) ls = some s) : CacheInv dur now s :=
  run_ind (P := CacheInv dur now) (fun _ _ _ h hs => cacheInv_step hd h (step_eff hs)) ls _ s (cacheInv_init dur now) hr

/-! ### Requests -/

/-- The requests in the queue, with a worker, and answered. -/
def owned (s : State) : List Nat := s.queue.map Prod.fst ++ s.jobs.map Job.req ++ answered s.log

/-- The requests not yet submitted, and those submitted. -/
def fresh (s : State) : List Nat :=
  s.queue.map Prod.fst ++ (s.jobs.filter fun j => j.stage == .admitted).map Job.req ++ submitted s.log

structure ReqInv (s : State) : Prop where
  owned : (owned s).Perm (List.range s.nextReq)
  fresh : (fresh s).Nodup
  qcall : ∀ x ∈ s.queue, Obs.call x.1 x.2 ∈ s.log
  jcall : ∀ j ∈ s.jobs, Obs.call j.req j.tx ∈ s.log ∧ ∃ p ∈ s.passes, p.req = some j.req ∧ p.txs = [j.tx] ∧ p.count = 0
  calls : ∀ r tx, Obs.call r tx ∈ s.log → r < s.nextReq
  calls1 : ∀ r tx tx', Obs.call r tx ∈ s.log → Obs.call r tx' ∈ s.log → tx = tx'
  subm : ∀ r tx t, Obs.submit r tx t ∈ s.log → Obs.call r tx ∈ s.log ∧
    ∃ p ∈ s.passes, p.req = some r ∧ p.txs = [tx] ∧ p.count = 0 ∧ p.time ≤ t
  past : ∀ p ∈ s.passes, p.time ≤ s.now
  ans : ∀ r e, Obs.answer r e ∈ s.log → ∃ tx, Obs.call r tx ∈ s.log ∧
    (Obs.verdict r tx e ∈ s.log ∨ (e = none ∧ ∃ p ∈ s.passes, p.req = some r ∧ p.txs = [tx] ∧ p.count ≠ 0))
  verd : ∀ r tx e, Obs.verdict r tx e ∈ s.log → ∃ t, Obs.submit r tx t ∈ s.log
  rpcs : ∀ j ∈ s.jobs, j.stage = .inRPC → ∃ t, Obs.submit j.req j.tx t ∈ s.log
  ret : ∀ r e, Obs.returned r e ∈ s.log → Obs.answer r e ∈ s.log ∨ e.isSome

theorem answerOf_mem {log : List Obs} {r : Nat} {e : Option Err} (h : answerOf log r = some e) :
    Obs.answer r e ∈ log := by
  unfold answerOf at h
  obtain ⟨o, ho, h2⟩ := List.exists_of_findSome?_eq_some h
  cases o with
  | answer r' e' =>
    dsimp only at h2
    split at h2
    · rename_i hr; cases h2; subst hr; exact ho
    · cases h2
  | _ => cases h2

theorem mem_of_get {α : Type} {l : List α} {i : Nat} {a : α} (h : l[i]? = some a) : a ∈ l :=
  List.mem_of_getElem? h

theorem perm_erase {α : Type} {l : List α} {i : Nat} {a : α} (h : l[i]? = some a) :
    l.Perm (a :: l.eraseIdx i) := by
  induction l generalizing i with
  | nil => simp at h
  | cons b l ih =>
    cases i with
    | zero => simp at h; subst h; simp
    | succ i =>
      simp only [List.getElem?_cons_succ] at h
      rw [List.eraseIdx_cons_succ]
      exact ((ih h).cons b).trans (List.Perm.swap a b _)

theorem set_perm {α : Type} {l : List α} {i : Nat} {a b : α} (h : l[i]? = some a) :
    (l.set i b).Perm (b :: l.eraseIdx i) := by
  induction l generalizing i with
  | nil => simp at h
  | cons c l ih =>
    cases i with
    | zero => simp
    | succ i =>
      simp only [List.getElem?_cons_succ] at h
      rw [List.eraseIdx_cons_succ, List.set_cons_succ]
      exact ((ih h).cons c).trans (List.Perm.swap b c _)

theorem reqInv_init (dur now : Int) : ReqInv (init dur now) where
  owned := by simp [TxA.owned, init, answered]
  fresh := by simp [TxA.fresh, init, submitted]
  qcall := by simp [init]
  jcall := by simp [init]
  calls := by simp [init]
  calls1 := by simp [init]
  subm := by simp [init]
  past := by simp [init]
  ans := by simp [init]
  verd := by simp [init]
  rpcs := by simp [init]
  ret := by simp [init]

theorem owned_lt {s : State} (h : ReqInv s) {r : Nat} (hr : r ∈ owned s) : r < s.nextReq := by
  have := h.owned.mem_iff.1 hr
  simpa using this

theorem reqInv_ret {s : State} (h : ReqInv s) (w : List Nat) (r : Nat) (e : Option Err)
    (ha : Obs.answer r e ∈ s.log ∨ e.isSome) : ReqInv { s with waiting := w, log := .returned r e :: s.log } := by
  have mm : ∀ {o}, o ∈ s.log → o ∈ Obs.returned r e :: s.log := fun ho => List.mem_cons_of_mem _ ho
  have nn : ∀ {o}, o ∈ Obs.returned r e :: s.log → (∀ r e, o ≠ Obs.returned r e) → o ∈ s.log := by
    intro o ho hne
    rcases List.mem_cons.1 ho with ho | ho
    · exact absurd ho (hne r e)
    · exact ho
  refine ⟨h.owned, h.fresh, fun x hx => mm (h.qcall x hx), fun j hj => ⟨mm (h.jcall j hj).1, (h.jcall j hj).2⟩,
    fun r t hm => h.calls r t (nn hm (by simp)), fun r t t' h1 h2 => h.calls1 r t t' (nn h1 (by simp)) (nn h2 (by simp)),
    fun r t tm hm => ⟨mm (h.subm r t tm (nn hm (by simp))).1, (h.subm r t tm (nn hm (by simp))).2⟩, h.past, ?_, ?_, ?_, ?_⟩
  · intro r' e' hm
    obtain ⟨t1, h1, h2⟩ := h.ans r' e' (nn hm (by simp))
    exact ⟨t1, mm h1, h2.imp mm id⟩
  · intro r' t1 e' hm
    obtain ⟨t, ht⟩ := h.verd r' t1 e' (nn hm (by simp)); exact ⟨t, mm ht⟩
  · intro j hj hs
    obtain ⟨t, ht⟩ := h.rpcs j hj hs; exact ⟨t, mm ht⟩
  · intro r' e' hm
    rcases List.mem_cons.1 hm with hm | hm
    · cases hm; exact ha.imp mm id
    · exact (h.ret r' e' hm).imp mm id

theorem reqInv_step {s s' : State} (h : ReqInv s) (he : Eff s s') : ReqInv s' := by
  have hq : ∀ x ∈ s.queue, x.1 ∈ owned s := fun x hx => by
    simp only [owned, List.mem_append, List.mem_map]; exact Or.inl (Or.inl ⟨x, hx, rfl⟩)
  cases he with
  | call tx =>
    have hsub : ∀ r tx t, Obs.submit r tx t ∈ s.log → r < s.nextReq := fun r tx t hm => h.calls _ _ (h.subm r tx t hm).1
    refine ⟨?_, ?_, ?_, ?_, ?_, ?_, ?_, h.past, ?_, ?_, ?_, ?_⟩
    · show (((s.queue ++ [(s.nextReq, tx)]).map Prod.fst ++ s.jobs.map Job.req) ++ answered s.log).Perm _
      rw [List.range_succ]
      have : (((s.queue ++ [(s.nextReq, tx)]).map Prod.fst ++ s.jobs.map Job.req) ++ answered s.log).Perm
          (owned s ++ [s.nextReq]) := by
        rw [List.map_append]
        unfold owned
        simp only [List.map_cons, List.map_nil, List.append_assoc]
        refine List.Perm.append_left _ ?_
        rw [← List.append_assoc (s.jobs.map Job.req)]
        exact List.perm_append_comm
      exact this.trans (h.owned.append_right _)
    · show (((s.queue ++ [(s.nextReq, tx)]).map Prod.fst ++ _) ++ submitted s.log).Nodup
      have hp : (((s.queue ++ [(s.nextReq, tx)]).map Prod.fst ++
          (s.jobs.filter fun j => j.stage == .admitted).map Job.req) ++ submitted s.log).Perm
          (s.nextReq :: fresh s) := by
        rw [List.map_append]
        unfold fresh
        simp only [List.map_cons, List.map_nil, List.append_assoc]
        exact List.perm_middle
      rw [hp.nodup_iff, List.nodup_cons]
      refine ⟨?_, h.fresh⟩
      intro hm
      unfold fresh at hm
      simp only [List.mem_append, List.mem_map, List.mem_filter] at hm
      rcases hm with (⟨x, hx, e⟩ | ⟨j, ⟨hj, _⟩, e⟩) | hm
      · have := h.calls _ _ (h.qcall x hx); omega
      · have := h.calls _ _ (h.jcall j hj).1; omega
      · unfold submitted at hm
        obtain ⟨o, ho, e⟩ := List.mem_filterMap.1 hm
        cases o with
        | submit r tx t => cases e; exact Nat.lt_irrefl _ (hsub _ _ _ ho)
        | _ => cases e
    · intro x hx
      rcases List.mem_append.1 hx with hx | hx
      · exact List.mem_cons_of_mem _ (h.qcall x hx)
      · rw [List.mem_singleton.1 hx]; exact List.mem_cons_self ..
    · intro j hj
      exact ⟨List.mem_cons_of_mem _ (h.jcall j hj).1, (h.jcall j hj).2⟩
    · intro r tx' hm
      rcases List.mem_cons.1 hm with hm | hm
      · cases hm; exact Nat.lt_succ_self _
      · exact Nat.lt_succ_of_lt (h.calls r tx' hm)
    · intro r t1 t2 h1 h2
      rcases List.mem_cons.1 h1 with h1 | h1 <;> rcases List.mem_cons.1 h2 with h2 | h2
      · cases h1; cases h2; rfl
      · cases h1; exact absurd (h.calls _ _ h2) (Nat.lt_irrefl _)
      · cases h2; exact absurd (h.calls _ _ h1) (Nat.lt_irrefl _)
      · exact h.calls1 r t1 t2 h1 h2
    · intro r t1 t hm
      rcases List.mem_cons.1 hm with hm | hm
      · cases hm
      · exact ⟨List.mem_cons_of_mem _ (h.subm r t1 t hm).1, (h.subm r t1 t hm).2⟩
    · intro r e hm
      rcases List.mem_cons.1 hm with hm | hm
      · cases hm
      · obtain ⟨t1, h1, h2⟩ := h.ans r e hm
        exact ⟨t1, List.mem_cons_of_mem _ h1, h2.imp (List.mem_cons_of_mem _) id⟩
    · intro r t1 e hm
      rcases List.mem_cons.1 hm with hm | hm
      · cases hm
      · obtain ⟨t, ht⟩ := h.verd r t1 e hm; exact ⟨t, List.mem_cons_of_mem _ ht⟩
    · intro j hj hs
      obtain ⟨t, ht⟩ := h.rpcs j hj hs; exact ⟨t, List.mem_cons_of_mem _ ht⟩
    · intro r e hm
      rcases List.mem_cons.1 hm with hm | hm
      · cases hm
      · exact (h.ret r e hm).imp (List.mem_cons_of_mem _) id
  | crash txs hc => exact ⟨h.owned, h.fresh, h.qcall, h.jcall, h.calls, h.calls1, h.subm, h.past, h.ans, h.verd, h.rpcs, h.ret⟩
  | admit i r tx c hq' hc =>
    have hpe := (perm_erase hq').map Prod.fst
    refine ⟨?_, ?_, ?_, ?_, h.calls, h.calls1, ?_, ?_, ?_, h.verd, ?_, h.ret⟩
    · refine List.Perm.trans ?_ h.owned
      unfold owned
      rw [List.map_append]
      simp only [List.map_cons, List.map_nil]
      refine List.Perm.append_right _ ?_
      refine List.Perm.trans ?_ (hpe.symm.append_right _)
      rw [← List.append_assoc]
      exact List.perm_append_comm
    · have hp : (fresh s).Perm (fresh { s with
          cache := c, queue := s.queue.eraseIdx i, passes := s.passes ++ [⟨s.now, [tx], some r, 0⟩],
          jobs := s.jobs ++ [⟨r, tx, .admitted⟩] }) := by
        unfold fresh
        rw [List.filter_append, List.map_append]
        refine List.Perm.append_right _ ?_
        refine (hpe.append_right _).trans ?_
        show (r :: _ ++ _).Perm (_ ++ (_ ++ [r]))
        rw [← List.append_assoc]
        exact List.perm_append_comm (l₁ := [r])
      exact hp.nodup_iff.1 h.fresh
    · intro x hx; exact h.qcall x (List.mem_of_mem_eraseIdx hx)
    · intro j hj
      rcases List.mem_append.1 hj with hj | hj
      · obtain ⟨h1, p, h2, h3⟩ := h.jcall j hj
        exact ⟨h1, p, List.mem_append_left _ h2, h3⟩
      · rw [List.mem_singleton.1 hj]
        exact ⟨h.qcall _ (mem_of_get hq'), _, List.mem_append_right _ (List.mem_singleton_self _), rfl, rfl, rfl⟩
    · intro r t1 t hm
      obtain ⟨h1, p, h2, h3⟩ := h.subm r t1 t hm
      exact ⟨h1, p, List.mem_append_left _ h2, h3⟩
    · intro p hp
      rcases List.mem_append.1 hp with hp | hp
      · exact h.past p hp
      · obtain rfl := List.mem_singleton.1 hp; exact Int.le_refl _
    · intro r e hm
      obtain ⟨t1, h1, h2⟩ := h.ans r e hm
      refine ⟨t1, h1, h2.imp id ?_⟩
      rintro ⟨e1, p, hp, h3⟩
      exact ⟨e1, p, List.mem_append_left _ hp, h3⟩
    · intro j hj hs
      rcases List.mem_append.1 hj with hj | hj
      · exact h.rpcs j hj hs
      · rw [List.mem_singleton.1 hj] at hs; cases hs
  | hit i r tx c n hq' hc hn =>
    have hpe := (perm_erase hq').map Prod.fst
    refine ⟨?_, ?_, ?_, ?_, ?_, ?_, ?_, ?_, ?_, ?_, ?_, ?_⟩
    · refine List.Perm.trans ?_ h.owned
      show ((s.queue.eraseIdx i).map Prod.fst ++ s.jobs.map Job.req ++ r :: answered s.log).Perm _
      refine List.perm_middle.trans ?_
      unfold owned
      exact (hpe.symm.append_right _).append_right (answered s.log)
    · have hp : ((s.queue.eraseIdx i).map Prod.fst).Sublist (s.queue.map Prod.fst) :=
        (List.eraseIdx_sublist _ _).map _
      exact h.fresh.sublist ((hp.append_right _).append_right _)
    · intro x hx; exact List.mem_cons_of_mem _ (h.qcall x (List.mem_of_mem_eraseIdx hx))
    · intro j hj
      obtain ⟨h1, p, h2, h3⟩ := h.jcall j hj
      exact ⟨List.mem_cons_of_mem _ h1, p, List.mem_append_left _ h2, h3⟩
    · intro r tx' hm
      rcases List.mem_cons.1 hm with hm | hm
      · cases hm
      · exact h.calls r tx' hm
    · intro r t1 t2 h1 h2
      rcases List.mem_cons.1 h1 with h1 | h1
      · cases h1
      rcases List.mem_cons.1 h2 with h2 | h2
      · cases h2
      exact h.calls1 r t1 t2 h1 h2
    · intro r t1 t hm
      rcases List.mem_cons.1 hm with hm | hm
      · cases hm
      obtain ⟨h1, p, h2, h3⟩ := h.subm r t1 t hm
      exact ⟨List.mem_cons_of_mem _ h1, p, List.mem_append_left _ h2, h3⟩
    · intro p hp
      rcases List.mem_append.1 hp with hp | hp
      · exact h.past p hp
      · obtain rfl := List.mem_singleton.1 hp; exact Int.le_refl _
    · intro r' e hm
      rcases List.mem_cons.1 hm with hm | hm
      · cases hm
        exact ⟨tx, List.mem_cons_of_mem _ (h.qcall _ (mem_of_get hq')), Or.inr ⟨rfl, _,
          List.mem_append_right _ (List.mem_singleton_self _), rfl, rfl, hn⟩⟩
      · obtain ⟨t1, h1, h2⟩ := h.ans r' e hm
        refine ⟨t1, List.mem_cons_of_mem _ h1, h2.imp (List.mem_cons_of_mem _) ?_⟩
        rintro ⟨e1, p, hp, h3⟩
        exact ⟨e1, p, List.mem_append_left _ hp, h3⟩
    · intro r t1 e hm
      rcases List.mem_cons.1 hm with hm | hm
      · cases hm
      · obtain ⟨t, ht⟩ := h.verd r t1 e hm; exact ⟨t, List.mem_cons_of_mem _ ht⟩
    · intro j hj hs
      obtain ⟨t, ht⟩ := h.rpcs j hj hs; exact ⟨t, List.mem_cons_of_mem _ ht⟩
    · intro r e hm
      rcases List.mem_cons.1 hm with hm | hm
      · cases hm
      · exact (h.ret r e hm).imp (List.mem_cons_of_mem _) id
  | submit i r tx hj =>
    have hjc := h.jcall _ (mem_of_get hj)
    refine ⟨?_, ?_, ?_, ?_, ?_, ?_, ?_, h.past, ?_, ?_, ?_, ?_⟩
    · refine List.Perm.trans ?_ h.owned
      show (s.queue.map Prod.fst ++ (s.jobs.set i ⟨r, tx, .inRPC⟩).map Job.req ++ answered s.log).Perm _
      unfold owned
      refine List.Perm.append_right _ (List.Perm.append_left _ ?_)
      have h1 := (set_perm (b := (⟨r, tx, .inRPC⟩ : Job)) hj).map Job.req
      have h2 := (perm_erase hj).map Job.req
      exact h1.trans h2.symm
    · have h1 := ((set_perm (b := (⟨r, tx, .inRPC⟩ : Job)) hj).filter fun j => j.stage == .admitted).map Job.req
      have h2 := ((perm_erase hj).filter fun j => j.stage == .admitted).map Job.req
      have e1 : ((⟨r, tx, .inRPC⟩ : Job) :: s.jobs.eraseIdx i).filter (fun j => j.stage == .admitted) =
          (s.jobs.eraseIdx i).filter (fun j => j.stage == .admitted) := by
        rw [List.filter_cons_of_neg]; exact Bool.false_ne_true
      have e2 : ((⟨r, tx, .admitted⟩ : Job) :: s.jobs.eraseIdx i).filter (fun j => j.stage == .admitted) =
          ⟨r, tx, .admitted⟩ :: (s.jobs.eraseIdx i).filter (fun j => j.stage == .admitted) := by
        rw [List.filter_cons_of_pos]; rfl
      rw [e1] at h1
      rw [e2, List.map_cons] at h2
      have hp : (fresh s).Perm (fresh { s with
          jobs := s.jobs.set i ⟨r, tx, .inRPC⟩, log := .submit r tx s.now :: s.log }) := by
        show (fresh s).Perm (s.queue.map Prod.fst ++ ((s.jobs.set i ⟨r, tx, .inRPC⟩).filter _).map Job.req ++
          r :: submitted s.log)
        refine List.Perm.trans ?_ List.perm_middle.symm
        refine List.Perm.trans ?_ (((h1.symm.append_left _).append_right _).cons r)
        unfold fresh
        rw [List.append_assoc, List.append_assoc]
        refine List.Perm.trans ?_ List.perm_middle
        refine List.Perm.append_left _ ?_
        exact h2.append_right _
      exact hp.nodup_iff.1 h.fresh
    · intro x hx; exact List.mem_cons_of_mem _ (h.qcall x hx)
    · intro j hj'
      rcases List.mem_or_eq_of_mem_set hj' with hj' | rfl
      · exact ⟨List.mem_cons_of_mem _ (h.jcall j hj').1, (h.jcall j hj').2⟩
      · exact ⟨List.mem_cons_of_mem _ hjc.1, hjc.2⟩
    · intro r tx' hm
      rcases List.mem_cons.1 hm with hm | hm
      · cases hm
      · exact h.calls r tx' hm
    · intro r t1 t2 h1 h2
      rcases List.mem_cons.1 h1 with h1 | h1
      · cases h1
      rcases List.mem_cons.1 h2 with h2 | h2
      · cases h2
      exact h.calls1 r t1 t2 h1 h2
    · intro r' t1 t hm
      rcases List.mem_cons.1 hm with hm | hm
      · cases hm
        obtain ⟨h1, p, h2, h3, h4, h5⟩ := hjc
        exact ⟨List.mem_cons_of_mem _ h1, p, h2, h3, h4, h5, h.past p h2⟩
      · obtain ⟨h1, h2⟩ := h.subm r' t1 t hm
        exact ⟨List.mem_cons_of_mem _ h1, h2⟩
    · intro r e hm
      rcases List.mem_cons.1 hm with hm | hm
      · cases hm
      · obtain ⟨t1, h1, h2⟩ := h.ans r e hm
        exact ⟨t1, List.mem_cons_of_mem _ h1, h2.imp (List.mem_cons_of_mem _) id⟩
    · intro r t1 e hm
      rcases List.mem_cons.1 hm with hm | hm
      · cases hm
      · obtain ⟨t, ht⟩ := h.verd r t1 e hm; exact ⟨t, List.mem_cons_of_mem _ ht⟩
    · intro j hj' hs
      rcases List.mem_or_eq_of_mem_set hj' with hj' | rfl
      · obtain ⟨t, ht⟩ := h.rpcs j hj' hs; exact ⟨t, List.mem_cons_of_mem _ ht⟩
      · exact ⟨s.now, List.mem_cons_self ..⟩
    · intro r e hm
      rcases List.mem_cons.1 hm with hm | hm
      · cases hm
      · exact (h.ret r e hm).imp (List.mem_cons_of_mem _) id
  | rpcReturn i r tx e hj =>
    have hjc := h.jcall _ (mem_of_get hj)
    have mm : ∀ {o}, o ∈ s.log → o ∈ Obs.answer r e :: .verdict r tx e :: s.log :=
      fun ho => List.mem_cons_of_mem _ (List.mem_cons_of_mem _ ho)
    refine ⟨?_, ?_, ?_, ?_, ?_, ?_, ?_, h.past, ?_, ?_, ?_, ?_⟩
    · refine List.Perm.trans ?_ h.owned
      show (s.queue.map Prod.fst ++ (s.jobs.eraseIdx i).map Job.req ++ r :: answered s.log).Perm _
      unfold owned
      refine List.perm_middle.trans ?_
      show ((r :: (s.queue.map Prod.fst ++ (s.jobs.eraseIdx i).map Job.req)) ++ answered s.log).Perm _
      refine List.Perm.append_right _ ?_
      refine List.perm_middle.symm.trans (List.Perm.append_left _ ?_)
      exact ((perm_erase hj).map Job.req).symm
    · have hp : ((s.jobs.eraseIdx i).filter fun j => j.stage == .admitted).map Job.req |>.Sublist
          ((s.jobs.filter fun j => j.stage == .admitted).map Job.req) :=
        ((List.eraseIdx_sublist _ _).filter _).map _
      exact h.fresh.sublist ((hp.append_left _).append_right _)
    · intro x hx; exact mm (h.qcall x hx)
    · intro j hj'
      have hj' := List.mem_of_mem_eraseIdx hj'
      exact ⟨mm (h.jcall j hj').1, (h.jcall j hj').2⟩
    · intro r tx' hm
      rcases List.mem_cons.1 hm with hm | hm
      · cases hm
      rcases List.mem_cons.1 hm with hm | hm
      · cases hm
      · exact h.calls r tx' hm
    · intro r t1 t2 h1 h2
      rcases List.mem_cons.1 h1 with h1 | h1
      · cases h1
      rcases List.mem_cons.1 h2 with h2 | h2
      · cases h2
      rcases List.mem_cons.1 h1 with h1 | h1
      · cases h1
      rcases List.mem_cons.1 h2 with h2 | h2
      · cases h2
      exact h.calls1 r t1 t2 h1 h2
    · intro r' t1 t hm
      rcases List.mem_cons.1 hm with hm | hm
      · cases hm
      rcases List.mem_cons.1 hm with hm | hm
      · cases hm
      · obtain ⟨h1, h2⟩ := h.subm r' t1 t hm
        exact ⟨mm h1, h2⟩
    · intro r' e' hm
      rcases List.mem_cons.1 hm with hm | hm
      · cases hm
        exact ⟨tx, mm hjc.1, Or.inl (List.mem_cons_of_mem _ (List.mem_cons_self ..))⟩
      rcases List.mem_cons.1 hm with hm | hm
      · cases hm
      · obtain ⟨t1, h1, h2⟩ := h.ans r' e' hm
        exact ⟨t1, mm h1, h2.imp mm id⟩
    · intro r' t1 e' hm
      rcases List.mem_cons.1 hm with hm | hm
      · cases hm
      rcases List.mem_cons.1 hm with hm | hm
      · cases hm
        obtain ⟨t, ht⟩ := h.rpcs _ (mem_of_get hj) rfl
        exact ⟨t, mm ht⟩
      · obtain ⟨t, ht⟩ := h.verd r' t1 e' hm; exact ⟨t, mm ht⟩
    · intro j hj' hs
      obtain ⟨t, ht⟩ := h.rpcs j (List.mem_of_mem_eraseIdx hj') hs; exact ⟨t, mm ht⟩
    · intro r' e' hm
      rcases List.mem_cons.1 hm with hm | hm
      · cases hm
      rcases List.mem_cons.1 hm with hm | hm
      · cases hm
      · exact (h.ret r' e' hm).imp mm id
  | broadcast txs c n hc =>
    refine ⟨h.owned, h.fresh, h.qcall, ?_, h.calls, h.calls1, ?_, ?_, ?_, h.verd, h.rpcs, h.ret⟩
    · intro j hj
      obtain ⟨h1, p, h2, h3⟩ := h.jcall j hj
      exact ⟨h1, p, List.mem_append_left _ h2, h3⟩
    · intro r t1 t hm
      obtain ⟨h1, p, h2, h3⟩ := h.subm r t1 t hm
      exact ⟨h1, p, List.mem_append_left _ h2, h3⟩
    · intro p hp
      rcases List.mem_append.1 hp with hp | hp
      · exact h.past p hp
      · obtain rfl := List.mem_singleton.1 hp; exact Int.le_refl _
    · intro r e hm
      obtain ⟨t1, h1, h2⟩ := h.ans r e hm
      refine ⟨t1, h1, h2.imp id ?_⟩
      rintro ⟨e1, p, hp, h3⟩
      exact ⟨e1, p, List.mem_append_left _ hp, h3⟩
  | tick d =>
    refine ⟨h.owned, h.fresh, h.qcall, h.jcall, h.calls, h.calls1, h.subm, ?_, h.ans, h.verd, h.rpcs, h.ret⟩
    intro p hp
    have := h.past p hp
    show p.time ≤ s.now + d
    omega
  | callerReturns r e hw ha => exact reqInv_ret h _ _ _ (Or.inl (answerOf_mem ha))
  | callerGivesUp r e hw => exact reqInv_ret h _ _ _ (Or.inr rfl)

theorem reqInv_run {dur now : Int} {ls : List Label} {s : State} (hr : run (init dur now) ls = some s) : ReqInv s :=
  run_ind (P := ReqInv) (fun _ _ _ h hs => reqInv_step h (step_eff hs)) ls _ s (reqInv_init dur now) hr

/-! ### Reading the cache history -/

theorem history_length (dur : Int) (calls : List (Time × List Bytes)) (log : List Spec.Obs) :
    (Spec.history dur calls log).2.length = calls.length := by
  induction calls generalizing log with
  | nil => rfl
  | cons c calls ih => simp [Spec.history, ih]

theorem history_ext (dur : Int) (calls : List (Time × List Bytes)) (log : List Spec.Obs) :
    ∃ ext, (Spec.history dur calls log).1 = log ++ ext := by
  induction calls generalizing log with
  | nil => exact ⟨[], by simp [Spec.history]⟩
  | cons c calls ih =>
    obtain ⟨e1, h1⟩ := Spec.present_append dur c.1 c.2 log
    obtain ⟨e2, h2⟩ := ih (Spec.present dur c.1 c.2 log).1
    exact ⟨e1 ++ e2, by simp only [Spec.history]; rw [h2, h1, List.append_assoc]⟩

theorem present_mem {dur : Int} {t : Time} {ids : List Bytes} {log : List Spec.Obs} {o : Spec.Obs}
    (h : o ∈ (Spec.present dur t ids log).1) : o ∈ log ∨ (o.time = t ∧ o.id ∈ ids) := by
  induction ids generalizing log with
  | nil => exact Or.inl h
  | cons id ids ih =>
    unfold Spec.present at h
    split at h
    all_goals
      rcases ih h with h1 | ⟨h1, h2⟩
      · rcases List.mem_append.1 h1 with h1 | h1
        · exact Or.inl h1
        · rw [List.mem_singleton.1 h1]; exact Or.inr ⟨rfl, List.mem_cons_self ..⟩
      · exact Or.inr ⟨h1, List.mem_cons_of_mem _ h2⟩

theorem history_mem {dur : Int} {ps : List Pass} {log : List Spec.Obs} {o : Spec.Obs}
    (h : o ∈ (Spec.history dur (hist ps) log).1) : o ∈ log ∨ ∃ p ∈ ps, p.time = o.time ∧ Shows p o.id := by
  induction ps generalizing log with
  | nil => exact Or.inl h
  | cons p ps ih =>
    simp only [hist, List.map_cons, Spec.history] at h
    rcases ih h with h1 | ⟨q, hq, h1⟩
    · rcases present_mem h1 with h1 | ⟨h1, h2⟩
      · exact Or.inl h1
      · obtain ⟨tx, htx, e⟩ := List.mem_map.1 h2
        exact Or.inr ⟨p, List.mem_cons_self .., h1.symm, tx, htx, e⟩
    · exact Or.inr ⟨q, List.mem_cons_of_mem _ hq, h1⟩

theorem present_shown {dur : Int} {t : Time} {ids : List Bytes} {log : List Spec.Obs} {id : Bytes} (h : id ∈ ids) :
    (∃ o ∈ (Spec.present dur t ids log).1, o.id = id ∧ o.fresh = true ∧ o.time = t) ∨
      Spec.SeenWithin dur log t id := by
  induction ids generalizing log with
  | nil => cases h
  | cons id' ids ih =>
    unfold Spec.present
    by_cases hs : Spec.SeenWithin dur log t id'
    · rw [if_pos hs]
      rcases List.mem_cons.1 h with rfl | h
      · exact Or.inr hs
      · rcases ih (log := log ++ [⟨t, id', false⟩]) h with h1 | ⟨o, ho, h1⟩
        · exact Or.inl h1
        · rcases List.mem_append.1 ho with ho | ho
          · exact Or.inr ⟨o, ho, h1⟩
          · rw [List.mem_singleton.1 ho] at h1; exact absurd h1.2.1 Bool.false_ne_true
    · rw [if_neg hs]
      rcases List.mem_cons.1 h with rfl | h
      · obtain ⟨e, he⟩ := Spec.present_append dur t ids (log ++ [⟨t, id, true⟩])
        refine Or.inl ⟨⟨t, id, true⟩, ?_, rfl, rfl, rfl⟩
        rw [he]; simp
      · rcases ih (log := log ++ [⟨t, id', true⟩]) h with h1 | ⟨o, ho, h1⟩
        · exact Or.inl h1
        · rcases List.mem_append.1 ho with ho | ho
          · exact Or.inr ⟨o, ho, h1⟩
          · have ho := List.mem_singleton.1 ho
            subst ho
            refine Or.inl ⟨⟨t, id', true⟩, ?_, h1.1, rfl, rfl⟩
            obtain ⟨e, he⟩ := Spec.present_append dur t ids (log ++ [⟨t, id', true⟩])
            rw [he]; simp

theorem count_at {dur start : Int} {s : State} (h : CacheInv dur start s) {a c : List Pass} {q : Pass}
    (e : s.passes = a ++ q :: c) :
    q.count = (Spec.present dur q.time (q.txs.map tid) (Spec.history dur (hist a) []).1).2 := by
  have hc := h.counts
  have hh : hist s.passes = hist a ++ ((q.time, q.txs.map tid) :: hist c) := by rw [e]; simp [hist]
  rw [hh, Spec.history_append, e, List.map_append, List.map_cons] at hc
  have hl : (a.map Pass.count).length = (Spec.history dur (hist a) []).2.length := by
    rw [history_length]; simp [hist]
  have := (List.append_inj hc hl).2
  simp only [Spec.history, List.cons.injEq] at this
  exact this.1

/-- A pass that lets an id through finds no fresh record of it within the window. -/
theorem admits_unseen {dur start : Int} {s : State} (h : CacheInv dur start s) {a c : List Pass} {q : Pass} {id : Bytes}
    (e : s.passes = a ++ q :: c) (ha : Admits q id) :
    ¬ Spec.SeenWithin dur (Spec.history dur (hist a) []).1 q.time id := by
  obtain ⟨h0, _, tx, h1, h2⟩ := ha
  have hc := count_at h e
  rw [h0, h1] at hc
  intro hs
  rw [← h2] at hs
  simp only [List.map_cons, List.map_nil, Spec.present] at hc
  rw [if_pos hs] at hc
  cases hc

/-- Whoever let an id through, or showed it first, keeps it out for the window. -/
theorem shown_then_admitted {dur start : Int} {s : State} (h : CacheInv dur start s) {a b c : List Pass} {p q : Pass}
    {id : Bytes} (e : s.passes = a ++ p :: (b ++ q :: c)) (hp : Shows p id) (hq : Admits q id) :
    dur < q.time - p.time ∨
      ∃ p' ∈ a, Shows p' id ∧ p.time - p'.time ≤ dur ∧ dur < q.time - p'.time := by
  have e' : s.passes = (a ++ p :: b) ++ q :: c := by rw [e]; simp
  have hu := admits_unseen h e' hq
  obtain ⟨tx, htx, hid⟩ := hp
  have hin : id ∈ p.txs.map tid := List.mem_map.2 ⟨tx, htx, hid⟩
  have hsplit : (Spec.history dur (hist (a ++ p :: b)) []).1 =
      (Spec.history dur (hist b) (Spec.present dur p.time (p.txs.map tid) (Spec.history dur (hist a) []).1).1).1 := by
    have : hist (a ++ p :: b) = hist a ++ ((p.time, p.txs.map tid) :: hist b) := by simp [hist]
    rw [this, Spec.history_append]; rfl
  obtain ⟨x2, hx2⟩ := history_ext dur (hist b)
    (Spec.present dur p.time (p.txs.map tid) (Spec.history dur (hist a) []).1).1
  rw [hsplit, hx2] at hu
  rcases present_shown (dur := dur) (t := p.time) (log := (Spec.history dur (hist a) []).1) hin with h1 | h1
  · obtain ⟨o, ho, h1, h2, h3⟩ := h1
    refine Or.inl ?_
    refine Decidable.byContradiction fun hc => hu ⟨o, List.mem_append_left _ ho, h1, h2, by omega⟩
  · obtain ⟨o, ho, h1, h2, h3⟩ := h1
    rcases history_mem ho with h4 | ⟨p', hp', h5, h6⟩
    · cases h4
    · rw [h1] at h6
      refine Or.inr ⟨p', hp', h6, by omega, ?_⟩
      obtain ⟨x1, hx1⟩ := Spec.present_append dur p.time (p.txs.map tid) (Spec.history dur (hist a) []).1
      refine Decidable.byContradiction fun hc => hu ⟨o, ?_, h1, h2, by omega⟩
      rw [hx1]; simp [ho]

theorem admits_present {dur start : Int} {s : State} (h : CacheInv dur start s) {a c : List Pass} {q : Pass} {id : Bytes}
    (e : s.passes = a ++ q :: c) (ha : Admits q id) :
    (Spec.present dur q.time (q.txs.map tid) (Spec.history dur (hist a) []).1).1 =
      (Spec.history dur (hist a) []).1 ++ [⟨q.time, id, true⟩] := by
  have hu := admits_unseen h e ha
  obtain ⟨_, _, tx, h1, h2⟩ := ha
  rw [h1]
  simp only [List.map_cons, List.map_nil, Spec.present]
  rw [if_neg (by rw [h2]; exact hu), h2]

theorem admitted_apart {dur start : Int} {s : State} (h : CacheInv dur start s) {a b c : List Pass} {p q : Pass}
    {id : Bytes} (e : s.passes = a ++ p :: (b ++ q :: c)) (hp : Admits p id) (hq : Admits q id) :
    dur < q.time - p.time := by
  have e' : s.passes = (a ++ p :: b) ++ q :: c := by rw [e]; simp
  have hu := admits_unseen h e' hq
  have hsplit : (Spec.history dur (hist (a ++ p :: b)) []).1 =
      (Spec.history dur (hist b) (Spec.present dur p.time (p.txs.map tid) (Spec.history dur (hist a) []).1).1).1 := by
    have : hist (a ++ p :: b) = hist a ++ ((p.time, p.txs.map tid) :: hist b) := by simp [hist]
    rw [this, Spec.history_append]; rfl
  obtain ⟨x2, hx2⟩ := history_ext dur (hist b)
    (Spec.present dur p.time (p.txs.map tid) (Spec.history dur (hist a) []).1).1
  rw [hsplit, hx2, admits_present h e hp] at hu
  refine Decidable.byContradiction fun hc => hu ⟨⟨p.time, id, true⟩, by simp, rfl, rfl, by simp only; omega⟩

theorem pairwise_of_split {α : Type} {R : α → α → Prop} (l : List α)
    (h : ∀ a p b q c, l = a ++ p :: (b ++ q :: c) → R p q) : l.Pairwise R := by
  induction l with
  | nil => exact List.Pairwise.nil
  | cons x l ih =>
    refine List.pairwise_cons.2 ⟨?_, ih fun a p b q c e => h (x :: a) p b q c (by rw [e]; rfl)⟩
    intro y hy
    obtain ⟨b, c, e⟩ := List.append_of_mem hy
    exact h [] x b y c (by rw [e]; rfl)

instance (p : Pass) (id : Bytes) : Decidable (Admits p id) :=
  match hp : p.txs with
  | [tx] => decidable_of_iff (p.count = 0 ∧ p.req.isSome ∧ tid tx = id)
      ⟨fun ⟨a, b, c⟩ => ⟨a, b, tx, hp, c⟩, fun ⟨a, b, tx', c, d⟩ => ⟨a, b, by rw [hp] at c; cases c; exact d⟩⟩
  | [] => .isFalse fun ⟨_, _, _, c, _⟩ => by rw [hp] at c; cases c
  | _ :: _ :: _ => .isFalse fun ⟨_, _, _, c, _⟩ => by rw [hp] at c; cases c

/-- The passes that let the id through. -/
def admissions (s : State) (id : Bytes) : List Pass := s.passes.filter fun p => decide (Admits p id)

theorem admissions_apart {dur start : Int} {s : State} (h : CacheInv dur start s) (id : Bytes) :
    (admissions s id).Pairwise fun p q => dur < q.time - p.time := by
  unfold admissions
  have : s.passes.Pairwise fun p q => Admits p id → Admits q id → dur < q.time - p.time :=
    pairwise_of_split _ fun a p b q c e hp hq => admitted_apart h e hp hq
  rw [List.pairwise_filter]
  exact this.imp fun f hp hq => f (of_decide_eq_true hp) (of_decide_eq_true hq)

theorem gaps_bound (dur : Int) (l : List Pass) (hi lo : Int)
    (hp : l.Pairwise fun p q => dur < q.time - p.time) (hb : ∀ p ∈ l, lo ≤ p.time ∧ p.time ≤ hi) (hne : l ≠ []) :
    ((l.length : Int) - 1) * (dur + 1) ≤ hi - lo := by
  induction l generalizing lo with
  | nil => exact absurd rfl hne
  | cons p l ih =>
    rw [List.pairwise_cons] at hp
    have h0 := hb p (List.mem_cons_self ..)
    by_cases hl : l = []
    · subst hl; simp; omega
    · have := ih (p.time + dur + 1) hp.2 (fun q hq => ⟨by have := hp.1 q hq; omega,
        (hb q (List.mem_cons_of_mem _ hq)).2⟩) hl
      simp only [List.length_cons]
      have e : ((↑(l.length + 1) : Int) - 1) * (dur + 1) = ((l.length : Int) - 1) * (dur + 1) + (dur + 1) := by
        push_cast; ring
      rw [e]; omega

theorem submittedId_sub (id : Bytes) (log : List Obs) : (submittedId id log).Sublist (submitted log) := by
  induction log with
  | nil => exact List.Sublist.slnil
  | cons o log ih =>
    cases o with
    | submit r tx t =>
      show (List.filterMap _ _).Sublist (r :: submitted log)
      rw [List.filterMap_cons]
      dsimp only
      split
      · rename_i h; split at h
        · cases h
        · exact ih.cons _
      · rename_i h; split at h
        · cases h; exact ih.cons_cons _
        · cases h
    | _ => exact ih

end KP2P.TxA

import Verif.Proof.TxCache
/-!
# C01, C02: the transaction cache
-/

namespace KP2P
open Spec

/-- Any starting time is below all call times of a monotone history. -/
private theorem exists_start (calls : List (Time × List Tx)) (h : Monotone calls) :
    ∃ p : Time, ∀ x ∈ calls, p ≤ x.1 := by
  cases calls with
  | nil => exact ⟨0, by simp⟩
  | cons c calls =>
    refine ⟨c.1, ?_⟩
    unfold Monotone at h
    rw [List.map_cons, List.pairwise_cons] at h
    intro x hx
    rcases List.mem_cons.1 hx with rfl | hx
    · exact Int.le_refl _
    · exact h.1 _ (List.mem_map.2 ⟨x, hx, rfl⟩)

/-- C01. For every cache duration, every history of calls (any transaction lists, with repeats) and
every non-decreasing clock, the counts returned by the calls are exactly those of the specification
log `Spec.history`, in which an observation is "seen" iff the id was recorded as new at most `dur` earlier. -/
theorem C01_window_exact (dur : Int) (hd : 0 ≤ dur) (calls : List (Time × List Tx))
    (hm : Monotone calls) :
    ∃ c, (TxCache.new dur).run calls = some (c, (history dur (idsOf calls) []).2) := by
  obtain ⟨p, hp⟩ := exists_start calls hm
  obtain ⟨c, h, _⟩ := TxCache.run_rel calls (TxCache.new dur) [] p hd (TxCache.rel_new dur p) hp hm
  exact ⟨c, h⟩

/-- C01, meaning of the specification log: at every position, an observation is marked as not new iff an
earlier observation of the same id was marked new at most `dur` before it. -/
theorem C01_log_meaning (dur : Int) (calls : List (Time × List Tx)) (pre : List Obs) (o : Obs)
    (post : List Obs) (h : (history dur (idsOf calls) []).1 = pre ++ o :: post) :
    o.fresh = false ↔ ∃ o' ∈ pre, o'.id = o.id ∧ o'.fresh = true ∧ o.time - o'.time ≤ dur :=
  classified_history dur (idsOf calls) [] (by intro pre o post e; simp at e) pre o post h

/-- C01, one transaction: after any history, checking a single transaction at time `t` answers 1 if the
id was last recorded as new at most `dur` before `t`, and 0 otherwise. -/
theorem C01_single (dur : Int) (hd : 0 ≤ dur) (calls : List (Time × List Tx)) (t : Time) (tx : Tx)
    (hm : Monotone (calls ++ [(t, [tx])])) :
    ∃ c ns, (TxCache.new dur).run (calls ++ [(t, [tx])]) =
      some (c, ns ++ [if SeenWithin dur (history dur (idsOf calls) []).1 t (str tx.id) then 1 else 0]) := by
  obtain ⟨c, h⟩ := C01_window_exact dur hd _ hm
  refine ⟨c, (history dur (idsOf calls) []).2, ?_⟩
  rw [h]
  have : idsOf (calls ++ [(t, [tx])]) = idsOf calls ++ [(t, [str tx.id])] := by simp [idsOf]
  rw [this, history_append]
  simp only [history, present]
  split <;> rfl

/-- Within one history, two observations that recorded the same id as new are more than `dur` apart. -/
theorem C01_new_twice_apart (dur : Int) (calls : List (Time × List Tx)) (pre mid post : List Obs)
    (o o' : Obs) (h : (history dur (idsOf calls) []).1 = pre ++ o :: mid ++ o' :: post)
    (hid : o.id = o'.id) (ho : o.fresh = true) (ho' : o'.fresh = true) : dur < o'.time - o.time := by
  have := C01_log_meaning dur calls (pre ++ o :: mid) o' post h
  rw [ho'] at this
  refine Decidable.byContradiction fun hc => ?_
  have : true = false := this.2 ⟨o, by simp, hid, ho, by omega⟩
  cases this

private def exCalls : List (Time × List Tx) :=
  [(0, [⟨some [1], []⟩, ⟨some [2], []⟩, ⟨some [1], []⟩]), (7, [⟨some [1], []⟩]), (11, [⟨some [1], []⟩]),
   (20, [⟨some [1], []⟩, ⟨some [2], []⟩])]

/- The hypotheses are met by a non-trivial history: duration 10, repeats, a hit that does not extend
the window (id 1 is new again at 11), and the counts are not all equal. -/
example : Monotone exCalls ∧ (history 10 (idsOf exCalls) []).2 = [1, 1, 0, 1] ∧
    ((TxCache.new 10).run exCalls).map Prod.snd = some [1, 1, 0, 1] := by decide +kernel

/-- C02. With a clock that never goes backwards no call panics, and after the last call (made at `now`)
the cache holds no record older than `dur`, no two records of one id, and the lookup table holds exactly
the ids of the records. -/
theorem C02_no_panic_no_stale (dur : Int) (hd : 0 ≤ dur) (calls : List (Time × List Tx)) (now : Time)
    (txs : List Tx) (hm : Monotone (calls ++ [(now, txs)])) :
    ∃ c ns, (TxCache.new dur).run (calls ++ [(now, txs)]) = some (c, ns) ∧
      (∀ it ∈ c.items, now - it.timeAdded ≤ dur) ∧
      (c.items.map TxItem.id).Nodup ∧
      (∀ id, c.txMap.has id = true ↔ id ∈ c.items.map TxItem.id) ∧
      c.txMap.len = c.items.length := by
  obtain ⟨p, hp⟩ := exists_start _ hm
  obtain ⟨c, h, _, p', hr, hle, _, hlive, hmin⟩ :=
    TxCache.run_rel _ (TxCache.new dur) [] p hd (TxCache.rel_new dur p) hp hm
  have hnow : now ≤ p' := hle (now, txs) (by simp)
  have hlast : ∀ x ∈ calls ++ [(now, txs)], x.1 ≤ now := by
    unfold Monotone at hm
    rw [List.map_append, List.pairwise_append] at hm
    intro x hx
    rcases List.mem_append.1 hx with hx | hx
    · exact hm.2.2 _ (List.mem_map.2 ⟨x, hx, rfl⟩) now (by simp)
    · simp at hx; subst hx; exact Int.le_refl _
  have hp' : p' ≤ now := hmin now (by have := hp (now, txs) (by simp); exact this) hlast
  have hmem : ∀ id, c.txMap.has id = true ↔ id ∈ c.items.map TxItem.id := by
    intro id; rw [hr.inv.map_iff, List.mem_map]
  refine ⟨c, _, h, ?_, hr.inv.nodup, hmem, ?_⟩
  · intro it hit
    have := hlive (by simp) it hit
    have hdur : (TxCache.new dur).dur = dur := rfl
    rw [hdur] at this
    omega
  · have hperm : c.txMap.keys.Perm (c.items.map TxItem.id) := by
      rw [List.perm_ext_iff_of_nodup c.txMap.keys_nodup hr.inv.nodup]
      intro a; rw [GoMap.mem_keys, hmem]
    rw [GoMap.len_eq_keys, hperm.length_eq, List.length_map]

/-- C02, completeness: nothing that is still inside the window was dropped. After the last call every id
recorded as new within the last `dur` is still remembered. -/
theorem C02_keeps_live (dur : Int) (hd : 0 ≤ dur) (calls : List (Time × List Tx)) (now : Time)
    (txs : List Tx) (hm : Monotone (calls ++ [(now, txs)])) :
    ∃ c ns, (TxCache.new dur).run (calls ++ [(now, txs)]) = some (c, ns) ∧
      ∀ id, c.txMap.has id = true ↔
        SeenWithin dur (history dur (idsOf (calls ++ [(now, txs)])) []).1 now id := by
  obtain ⟨p, hp⟩ := exists_start _ hm
  obtain ⟨c, h, hdur, p', hr, hle, _, hlive, hmin⟩ :=
    TxCache.run_rel _ (TxCache.new dur) [] p hd (TxCache.rel_new dur p) hp hm
  have hnow : now ≤ p' := hle (now, txs) (by simp)
  have hlast : ∀ x ∈ calls ++ [(now, txs)], x.1 ≤ now := by
    unfold Monotone at hm
    rw [List.map_append, List.pairwise_append] at hm
    intro x hx
    rcases List.mem_append.1 hx with hx | hx
    · exact hm.2.2 _ (List.mem_map.2 ⟨x, hx, rfl⟩) now (by simp)
    · simp at hx; subst hx; exact Int.le_refl _
  have hp' : p' ≤ now := hmin now (by have := hp (now, txs) (by simp); exact this) hlast
  have e : p' = now := by omega
  subst e
  refine ⟨c, _, h, fun id => ?_⟩
  have hh := TxCache.hit_iff c _ p' hr (by
    intro it hit; rw [hdur]; exact hlive (by simp) it hit) id
  rw [hdur] at hh
  exact hh

/- A clock that steps backwards does hit the panic, so the monotonicity hypothesis is not idle. -/
example : ((TxCache.new 10).run [(5, [⟨some [1], []⟩]), (3, [⟨some [2], []⟩])]).isNone = true := by
  decide +kernel

example : Monotone (exCalls ++ [(25, [⟨some [3], []⟩])]) := by decide +kernel

end KP2P

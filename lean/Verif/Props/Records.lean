import Verif.Model.ErrorHandler
import Mathlib.Data.List.Dedup
/-!
# C92: the error handler never forgets an address
-/

namespace KP2P

/-- The addresses (first components) charged in a history. -/
def chargedIPs (hist : List (Int × ErrHandler.Event)) : List Bytes := hist.filterMap fun
  | (_, .perr _ (some a) _) => some a.ip
  | _ => none

theorem handle_has (d : Spec.Decay) (o : ErrOpts) (h : ErrHandler) (t : Int) (e : ErrHandler.Event) (k : Bytes) :
    (h.handle d o t e).1.scores.has k = true ↔ h.scores.has k = true ∨ k ∈ chargedIPs [(t, e)] := by
  cases e with
  | perr p a err =>
    cases a with
    | none => simp [ErrHandler.handle, ErrHandler.handleError, chargedIPs]
    | some a =>
      simp only [ErrHandler.handle, ErrHandler.handleError, chargedIPs, List.filterMap_cons, List.filterMap_nil,
        List.mem_singleton, GoMap.has_eq, GoMap.get_set]
      by_cases hk : k = a.ip
      · simp [hk]
      · simp [hk]
  | canConnect a =>
    simp only [ErrHandler.handle, ErrHandler.handleCanConnect, chargedIPs, List.filterMap_cons, List.filterMap_nil,
      List.not_mem_nil, or_false]
    cases hg : h.scores.get a.ip with
    | none => rfl
    | some r =>
      simp only [GoMap.has_eq, GoMap.get_set]
      by_cases hk : k = a.ip
      · simp [hk, hg]
      · simp [hk]
  | getScore a =>
    simp only [ErrHandler.handle, ErrHandler.handleGetScore, chargedIPs, List.filterMap_cons, List.filterMap_nil,
      List.not_mem_nil, or_false]
    cases hg : h.scores.get a.ip with
    | none => rfl
    | some r =>
      simp only [GoMap.has_eq, GoMap.get_set]
      by_cases hk : k = a.ip
      · simp [hk, hg]
      · simp [hk]

theorem run_has (d : Spec.Decay) (o : ErrOpts) (hist : List (Int × ErrHandler.Event)) (h : ErrHandler) (k : Bytes) :
    (h.run d o hist).scores.has k = true ↔ h.scores.has k = true ∨ k ∈ chargedIPs hist := by
  induction hist generalizing h with
  | nil => simp [ErrHandler.run, chargedIPs]
  | cons x hist ih =>
    obtain ⟨t, e⟩ := x
    have : chargedIPs ((t, e) :: hist) = chargedIPs [(t, e)] ++ chargedIPs hist := by
      unfold chargedIPs
      rw [← List.filterMap_append]; rfl
    rw [this, List.mem_append, ErrHandler.run, ih, handle_has, or_assoc]

/-- C92 where it holds: exactly one record per address ever charged, none for addresses only asked about. -/
theorem C92_one_record_partial (d : Spec.Decay) (o : ErrOpts) (hist : List (Int × ErrHandler.Event)) :
    (ErrHandler.new.run d o hist).scores.len = (chargedIPs hist).dedup.length := by
  rw [GoMap.len_eq_keys]
  refine List.Perm.length_eq ((List.perm_ext_iff_of_nodup (GoMap.keys_nodup _) (List.nodup_dedup _)).2 fun k => ?_)
  rw [GoMap.mem_keys, run_has, List.mem_dedup]
  simp [ErrHandler.new, GoMap.has_eq]

/-- The claim: the memory of the error handler is bounded, at least if every address behaves for long enough after its
last error. -/
def RecordsBounded (d : Spec.Decay) (o : ErrOpts) : Prop :=
  ∃ n, ∀ hist, (ErrHandler.new.run d o hist).scores.len ≤ n

/-- One error from each of `n` addresses, one per day. -/
def manyPeers (n : Nat) : List (Int × ErrHandler.Event) := (List.range n).map fun (i : Nat) =>
  ((i : Int) * (86400 * second), .perr [] (some ⟨List.replicate i 0, []⟩) (.sentinel .blockApplication))

theorem chargedIPs_manyPeers (n : Nat) : chargedIPs (manyPeers n) = (List.range n).map fun i => List.replicate i 0 := by
  unfold chargedIPs manyPeers
  rw [List.filterMap_map, ← List.filterMap_eq_map]
  rfl

/-- C92 refuted for all options and every decay: the number of records grows with the number of addresses that ever made an
error, however long ago. -/
theorem C92_bounded_refuted (d : Spec.Decay) (o : ErrOpts) : ¬ RecordsBounded d o := by
  rintro ⟨n, h⟩
  have := h (manyPeers (n + 1))
  rw [C92_one_record_partial, chargedIPs_manyPeers, List.dedup_eq_self.2, List.length_map, List.length_range] at this
  · omega
  · refine List.Nodup.map ?_ List.nodup_range
    intro i j hij
    have := congrArg List.length hij
    simpa using this

example : (chargedIPs [(0, .perr [1] (some ⟨[7], []⟩) (.sentinel .forkBomb)), (1, .canConnect ⟨[8], []⟩),
    (2, .perr [2] (some ⟨[7], [[9]]⟩) (.sentinel .maxHeight)), (3, .perr [3] none (.sentinel .maxHeight))]).dedup.length = 1 := by
  decide +kernel

end KP2P

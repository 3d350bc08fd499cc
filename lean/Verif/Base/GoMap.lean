/-!
# Go maps

`map[K]V` is modelled as a list of key/value pairs with pairwise distinct keys.  The order of the list
stands for Go's unspecified iteration order; no property below depends on it.
-/

set_option linter.unusedSimpArgs false
set_option linter.unusedSectionVars false

namespace KP2P

/-- A Go `map[K]V`. -/
structure GoMap (K V : Type) where
  entries : List (K × V)
  nodup : (entries.map Prod.fst).Nodup

namespace GoMap

variable {K V : Type} [DecidableEq K]

instance [DecidableEq V] : DecidableEq (GoMap K V) := fun a b =>
  if h : a.entries = b.entries then isTrue (by cases a; cases b; simp_all)
  else isFalse (by intro e; exact h (by rw [e]))

instance [Repr K] [Repr V] : Repr (GoMap K V) := ⟨fun m n => reprPrec m.entries n⟩

/-- `make(map[K]V)` -/
def empty : GoMap K V := ⟨[], by simp⟩

instance : EmptyCollection (GoMap K V) := ⟨empty⟩

/-- `v, ok := m[k]` -/
def get (m : GoMap K V) (k : K) : Option V := (m.entries.find? (fun e => decide (e.1 = k))).map Prod.snd

/-- `_, ok := m[k]` -/
def has (m : GoMap K V) (k : K) : Bool := m.entries.any (fun e => decide (e.1 = k))

/-- The keys, in iteration order. -/
def keys (m : GoMap K V) : List K := m.entries.map Prod.fst

/-- `delete(m, k)` -/
def del (m : GoMap K V) (k : K) : GoMap K V :=
  ⟨m.entries.filter (fun e => decide (e.1 ≠ k)),
   List.Pairwise.sublist (List.Sublist.map _ List.filter_sublist) m.nodup⟩

/-- `m[k] = v` -/
def set (m : GoMap K V) (k : K) (v : V) : GoMap K V :=
  ⟨(k, v) :: (m.del k).entries, by
    simp only [List.map_cons, List.nodup_cons]
    refine ⟨?_, (m.del k).nodup⟩
    simp [del]⟩

/-- `len(m)` -/
def len (m : GoMap K V) : Nat := m.entries.length

omit [DecidableEq K] in
theorem ext_entries {a b : GoMap K V} (h : a.entries = b.entries) : a = b := by
  cases a; cases b; simp_all

private theorem find_filter_ne (l : List (K × V)) (k k' : K) :
    (l.filter (fun e => decide (e.1 ≠ k))).find? (fun e => decide (e.1 = k')) =
      if k' = k then none else l.find? (fun e => decide (e.1 = k')) := by
  induction l with
  | nil => simp
  | cons e l ih =>
    by_cases h1 : e.1 = k <;> by_cases h2 : e.1 = k' <;> by_cases h3 : k' = k <;>
      simp_all [List.filter_cons, List.find?_cons]

@[simp] theorem get_empty (k : K) : (∅ : GoMap K V).get k = none := rfl

@[simp] theorem get_del (m : GoMap K V) (k k' : K) :
    (m.del k).get k' = if k' = k then none else m.get k' := by
  unfold get del
  rw [find_filter_ne]
  split <;> rfl

@[simp] theorem get_set (m : GoMap K V) (k k' : K) (v : V) :
    (m.set k v).get k' = if k' = k then some v else m.get k' := by
  unfold get set
  by_cases h : k = k'
  · simp [h]
  · have h' : ¬ k' = k := fun e => h e.symm
    simp only [List.find?_cons, h, decide_false, h', ite_false]
    exact congrArg _ (by simp only [del]; rw [find_filter_ne]; simp [h'])

theorem has_eq (m : GoMap K V) (k : K) : m.has k = (m.get k).isSome := by
  unfold has get
  induction m.entries with
  | nil => simp
  | cons e l ih => by_cases h : e.1 = k <;> simp_all [List.find?_cons]

theorem has_iff (m : GoMap K V) (k : K) : m.has k = true ↔ ∃ v, m.get k = some v := by
  rw [has_eq, Option.isSome_iff_exists]

@[simp] theorem has_empty (k : K) : (∅ : GoMap K V).has k = false := rfl

@[simp] theorem has_del (m : GoMap K V) (k k' : K) :
    (m.del k).has k' = (!decide (k' = k) && m.has k') := by
  rw [has_eq, has_eq, get_del]; by_cases h : k' = k <;> simp [h]

@[simp] theorem has_set (m : GoMap K V) (k k' : K) (v : V) :
    (m.set k v).has k' = (decide (k' = k) || m.has k') := by
  rw [has_eq, has_eq, get_set]; by_cases h : k' = k <;> simp [h]

theorem mem_keys (m : GoMap K V) (k : K) : k ∈ m.keys ↔ m.has k = true := by
  unfold keys has; simp

theorem mem_keys' (m : GoMap K V) (k : K) : k ∈ m.keys ↔ ∃ v, m.get k = some v := by
  rw [mem_keys, has_iff]

omit [DecidableEq K] in
theorem keys_nodup (m : GoMap K V) : m.keys.Nodup := m.nodup

theorem get_eq_some_iff (m : GoMap K V) (k : K) (v : V) : m.get k = some v ↔ (k, v) ∈ m.entries := by
  obtain ⟨l, hl⟩ := m
  unfold get
  simp only
  induction l with
  | nil => simp
  | cons e l ih =>
    simp only [List.map_cons, List.nodup_cons] at hl
    by_cases h : e.1 = k
    · subst h
      simp only [List.find?_cons, decide_true, Option.map_some, Option.some.injEq, List.mem_cons]
      constructor
      · intro hv; left; rw [← hv]
      · rintro (h | h)
        · rw [← h]
        · exact absurd (List.mem_map.2 ⟨_, h, rfl⟩) hl.1
    · simp only [List.find?_cons, h, decide_false, List.mem_cons]
      rw [ih hl.2]
      constructor
      · exact Or.inr
      · rintro (h' | h')
        · exact absurd (by rw [← h']) h
        · exact h'

theorem get_eq_none_iff (m : GoMap K V) (k : K) : m.get k = none ↔ k ∉ m.keys := by
  rw [mem_keys']; cases m.get k <;> simp

theorem del_of_not_has (m : GoMap K V) (k : K) (h : m.has k = false) : m.del k = m := by
  apply ext_entries
  simp only [del]
  rw [List.filter_eq_self]
  intro e he
  simp only [has, List.any_eq_false, decide_eq_true_eq] at h
  simpa using h e he

private theorem length_filter_ne (l : List (K × V)) (k : K) (hl : (l.map Prod.fst).Nodup) :
    (l.filter (fun e => decide (e.1 ≠ k))).length =
      if l.any (fun e => decide (e.1 = k)) then l.length - 1 else l.length := by
  induction l with
  | nil => simp
  | cons e l ih =>
    simp only [List.map_cons, List.nodup_cons] at hl
    have ih := ih hl.2
    by_cases h : e.1 = k
    · have hn : l.any (fun e => decide (e.1 = k)) = false := by
        simp only [List.any_eq_false, decide_eq_true_eq]
        intro x hx hxk
        exact hl.1 (List.mem_map.2 ⟨x, hx, by rw [hxk, h]⟩)
      rw [hn] at ih
      have : (e :: l).any (fun e => decide (e.1 = k)) = true := by rw [List.any_cons]; simp [h]
      rw [if_pos this]
      simp only [List.filter_cons, h, ne_eq, not_true_eq_false, decide_false, Bool.false_eq_true,
        if_false, List.length_cons] at *
      omega
    · by_cases ha : l.any (fun e => decide (e.1 = k)) = true
      · have hpos : 0 < l.length := by
          cases l with
          | nil => simp at ha
          | cons => simp
        rw [if_pos ha] at ih
        have : (e :: l).any (fun e => decide (e.1 = k)) = true := by rw [List.any_cons, ha]; simp
        rw [if_pos this]
        simp only [List.filter_cons, ne_eq, h, not_false_eq_true, decide_true, if_true,
          List.length_cons, ih] at *
        omega
      · have ha' : l.any (fun e => decide (e.1 = k)) = false := Bool.not_eq_true _ ▸ ha
        rw [ha'] at ih
        have : (e :: l).any (fun e => decide (e.1 = k)) = false := by rw [List.any_cons, ha']; simp [h]
        rw [this]
        simp only [List.filter_cons, ne_eq, h, not_false_eq_true, decide_true, if_true,
          List.length_cons, Bool.false_eq_true, if_false] at *
        omega

theorem len_del (m : GoMap K V) (k : K) : (m.del k).len = if m.has k then m.len - 1 else m.len := by
  unfold len del has; exact length_filter_ne _ _ m.nodup

theorem len_pos_of_has (m : GoMap K V) (k : K) (h : m.has k = true) : 0 < m.len := by
  unfold has at h; unfold len
  cases hm : m.entries with
  | nil => rw [hm] at h; simp at h
  | cons => simp

theorem len_set (m : GoMap K V) (k : K) (v : V) :
    (m.set k v).len = if m.has k then m.len else m.len + 1 := by
  have : (m.set k v).len = (m.del k).len + 1 := rfl
  rw [this, len_del]
  by_cases h : m.has k
  · have := len_pos_of_has m k h
    simp [h]; omega
  · simp [h]

@[simp] theorem len_empty : (∅ : GoMap K V).len = 0 := rfl

theorem len_eq_zero_iff (m : GoMap K V) : m.len = 0 ↔ ∀ k, m.get k = none := by
  constructor
  · intro h k
    rw [get_eq_none_iff]
    unfold len at h
    have : m.entries = [] := List.eq_nil_of_length_eq_zero h
    simp [keys, this]
  · intro h
    unfold len
    cases hm : m.entries with
    | nil => rfl
    | cons e l =>
      have := (get_eq_some_iff m e.1 e.2).2 (by rw [hm]; simp)
      rw [h] at this; cases this

omit [DecidableEq K] in
theorem len_eq_keys (m : GoMap K V) : m.len = m.keys.length := by simp [len, keys]

end GoMap

/-- Go `map[K]void`, used as a set. -/
abbrev GoSet (K : Type) := GoMap K Unit

end KP2P

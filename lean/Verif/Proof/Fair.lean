import Mathlib.Order.Basic
import Mathlib.Data.Nat.Basic
/-!
# Progress under weak fairness
-/

namespace KP2P

/-- From a state with `P` a state with `Q` is reached, if `P` and a measure are kept until then, and steps of a kind that
cannot be put off for ever make the measure smaller. -/
theorem leads_to {S L : Type} {σ : Nat → S} {ev : Nat → L} (rank : S → Nat) (P Q : S → Prop) (C : S → L → Prop)
    (hstep : ∀ n, P (σ n) → ¬ Q (σ n) → Q (σ (n + 1)) ∨ (P (σ (n + 1)) ∧ rank (σ (n + 1)) ≤ rank (σ n) ∧
      (C (σ n) (ev n) → rank (σ (n + 1)) < rank (σ n))))
    (hfair : ∀ n, (∀ m, n ≤ m → P (σ m) ∧ ¬ Q (σ m)) → ∃ m, n ≤ m ∧ C (σ m) (ev m)) :
    ∀ n, P (σ n) → ∃ m, n ≤ m ∧ Q (σ m) := by
  suffices h : ∀ k n, rank (σ n) ≤ k → P (σ n) → ∃ m, n ≤ m ∧ Q (σ m) from fun n => h (rank (σ n)) n (Nat.le_refl _)
  intro k
  induction k with
  | zero =>
    intro n hk hp
    by_contra hno
    have hq : ∀ m, n ≤ m → ¬ Q (σ m) := fun m hm h => hno ⟨m, hm, h⟩
    have key : ∀ d, P (σ (n + d)) ∧ rank (σ (n + d)) = 0 := by
      intro d
      induction d with
      | zero => exact ⟨hp, by simpa using hk⟩
      | succ d ih =>
        rcases hstep (n + d) ih.1 (hq _ (by omega)) with h | ⟨h1, h2, _⟩
        · exact absurd h (hq (n + d + 1) (by omega))
        · exact ⟨h1, by have := ih.2; show rank (σ (n + d + 1)) = 0; omega⟩
    obtain ⟨m, hm, hc⟩ := hfair n (fun m hm => by
      obtain ⟨d, rfl⟩ := Nat.exists_eq_add_of_le hm
      exact ⟨(key d).1, hq _ hm⟩)
    obtain ⟨d, rfl⟩ := Nat.exists_eq_add_of_le hm
    rcases hstep (n + d) (key d).1 (hq _ hm) with h | ⟨_, _, h3⟩
    · exact hq (n + d + 1) (by omega) h
    · have := h3 hc; have := (key d).2; omega
  | succ k ih =>
    intro n hk hp
    by_contra hno
    have hq : ∀ m, n ≤ m → ¬ Q (σ m) := fun m hm h => hno ⟨m, hm, h⟩
    have key : ∀ d, P (σ (n + d)) ∧ rank (σ (n + d)) ≤ k + 1 := by
      intro d
      induction d with
      | zero => exact ⟨hp, by simpa using hk⟩
      | succ d ih =>
        rcases hstep (n + d) ih.1 (hq _ (by omega)) with h | ⟨h1, h2, _⟩
        · exact absurd h (hq (n + d + 1) (by omega))
        · exact ⟨h1, by have := ih.2; show rank (σ (n + d + 1)) ≤ k + 1; omega⟩
    obtain ⟨m, hm, hc⟩ := hfair n (fun m hm => by
      obtain ⟨d, rfl⟩ := Nat.exists_eq_add_of_le hm
      exact ⟨(key d).1, hq _ hm⟩)
    obtain ⟨d, rfl⟩ := Nat.exists_eq_add_of_le hm
    rcases hstep (n + d) (key d).1 (hq _ hm) with h | ⟨h1, _, h3⟩
    · exact hq (n + d + 1) (by omega) h
    · have h4 := h3 hc
      have h5 := (key d).2
      obtain ⟨m, hm, h⟩ := ih (n + d + 1) (by omega) h1
      exact hq m (by omega) h

end KP2P

import Verif.Proof.ErrorHandler
import Verif.Spec.Decay
/-!
# The score against the exact sum of decayed charges
-/

namespace KP2P
open Spec (Decay Entry balance Balance decayedSum totalCharged InOrder Rounded left)

theorem left_eq_factor {h : Int} (hh : 0 < h) (t : Int) : left h t = factor h t := by
  unfold left factor
  rw [Real.rpow_def_of_pos (by norm_num)]
  congr 1
  have : (h : ℝ) ≠ 0 := by exact_mod_cast hh.ne'
  field_simp

theorem left_pos (h t : Int) : 0 < left h t := Real.rpow_pos_of_pos (by norm_num) _

theorem left_add {h : Int} (hh : 0 < h) (s t : Int) : left h (s + t) = left h s * left h t := by
  rw [left_eq_factor hh, left_eq_factor hh, left_eq_factor hh, factor_add]

theorem left_le_one {h : Int} (hh : 0 < h) {t : Int} (ht : 0 ≤ t) : left h t ≤ 1 := by
  rw [left_eq_factor hh]; exact factor_le_one hh ht

theorem left_zero {h : Int} (hh : 0 < h) : left h 0 = 1 := by
  have := factor_halflives hh 0
  rw [left_eq_factor hh]; simpa using this

theorem left_halflives {h : Int} (hh : 0 < h) (n : Nat) : left h (n * h) = (1 / 2) ^ n := by
  rw [left_eq_factor hh]; exact factor_halflives hh n

theorem left_anti {h : Int} (hh : 0 < h) {s t : Int} (hst : s ≤ t) : left h t ≤ left h s := by
  have : t = s + (t - s) := by omega
  rw [this, left_add hh]
  exact mul_le_of_le_one_right (left_pos _ _).le (left_le_one hh (by omega))

theorem realDecay_rounded {h : Int} (hh : 0 < h) : Rounded h 0 (realDecay h) := by
  intro t ht s
  refine ⟨(s.toNat : ℝ) * left h t, by simp, by simp, ?_⟩
  rw [left_eq_factor hh, realDecay_toNat hh ht]

theorem decayedSum_nonneg (h : Int) (es : List (Int × Entry)) (T : Int) : 0 ≤ decayedSum h es T := by
  unfold decayedSum
  apply List.sum_nonneg
  intro x hx
  obtain ⟨e, _, rfl⟩ := List.mem_map.1 hx
  split
  · exact mul_nonneg (Nat.cast_nonneg _) (left_pos _ _).le
  · exact le_refl _

theorem decayedSum_append (h : Int) (a b : List (Int × Entry)) (T : Int) :
    decayedSum h (a ++ b) T = decayedSum h a T + decayedSum h b T := by
  simp [decayedSum]

theorem decayedSum_later {h : Int} (hh : 0 < h) (es : List (Int × Entry)) (T U : Int) :
    decayedSum h es U = decayedSum h es T * left h (U - T) := by
  induction es with
  | nil => simp [decayedSum]
  | cons e es ih =>
    obtain ⟨t, x⟩ := e
    cases x with
    | read =>
      have h1 : ∀ V, decayedSum h ((t, Entry.read) :: es) V = decayedSum h es V := fun V => by simp [decayedSum]
      rw [h1, h1, ih]
    | charge n =>
      have h1 : ∀ V, decayedSum h ((t, Entry.charge n) :: es) V = (n.toNat : ℝ) * left h (V - t) + decayedSum h es V :=
        fun V => by simp [decayedSum]
      rw [h1, h1, ih, add_mul, mul_assoc, ← left_add hh]
      congr 3; omega

/-- The invariant relating a balance to the exact sum. -/
def Near (h : Int) (ε : ℝ) (es : List (Int × Entry)) (b : Balance) : Prop :=
  match b with
  | none => ∀ T, decayedSum h es T = 0
  | some (t, s) => (s.toNat : ℝ) ≤ decayedSum h es t * (1 + ε) ^ es.length ∧
      decayedSum h es t * (1 - ε) ^ es.length - es.length ≤ s.toNat

theorem near_balance {h : Int} (hh : 0 < h) {ε : ℝ} (h0 : 0 ≤ ε) (h1 : ε ≤ 1) {d : Decay} (hd : Rounded h ε d)
    (hni : d.NonIncreasing) (es : List (Int × Entry)) (ho : InOrder es) (hsum : totalCharged es < 2 ^ 64) :
    Near h ε es (balance d es) := by
  induction es using List.reverseRecOn with
  | nil => simp [Near, balance, Spec.balanceFrom, decayedSum]
  | append_singleton es e ih =>
    obtain ⟨T, x⟩ := e
    rw [totalCharged_append] at hsum
    have ho' : InOrder es := by
      unfold InOrder at ho ⊢
      rw [List.map_append, List.pairwise_append] at ho
      exact ho.1
    have ih := ih ho' (by omega)
    have hle := balance_at_le d hni es T (by
      unfold InOrder at ho ⊢
      simpa using ho)
    rw [balance_snoc]
    have hlen : (es ++ [(T, x)]).length = es.length + 1 := by simp
    have hp1 : (1 : ℝ) ≤ (1 + ε) ^ (es.length + 1) := one_le_pow₀ (by linarith)
    have hp2 : (1 - ε) ^ (es.length + 1) ≤ 1 := pow_le_one₀ (by linarith) (by linarith)
    have hp3 : 0 ≤ (1 - ε) ^ (es.length + 1) := pow_nonneg (by linarith) _
    cases hb : balance d es with
    | none =>
      rw [hb] at ih
      have ih : ∀ T, decayedSum h es T = 0 := ih
      cases x with
      | read =>
        show Near h ε _ none
        intro U
        rw [decayedSum_append, ih]; simp [decayedSum]
      | charge n =>
        show Near h ε _ (some (T, n))
        unfold Near; dsimp only
        rw [decayedSum_append, ih, hlen]
        have : decayedSum h [(T, Entry.charge n)] T = n.toNat := by
          simp [decayedSum, left_zero hh]
        rw [this, zero_add]
        have hn : (0 : ℝ) ≤ n.toNat := Nat.cast_nonneg _
        constructor
        · exact le_mul_of_one_le_right hn hp1
        · have := mul_le_of_le_one_right hn hp2
          have : (0 : ℝ) ≤ ((es.length + 1 : Nat) : ℝ) := Nat.cast_nonneg _
          linarith
    | some b =>
      obtain ⟨t, s⟩ := b
      rw [hb] at ih hle
      obtain ⟨iu, il⟩ : (s.toNat : ℝ) ≤ decayedSum h es t * (1 + ε) ^ es.length ∧
        decayedSum h es t * (1 - ε) ^ es.length - es.length ≤ s.toNat := ih
      -- the instant of the balance is not later than `T`
      have htT : t ≤ T := by
        have hlast : ∃ x, (t, x) ∈ es := by
          clear ih iu il hle ho hsum
          induction es using List.reverseRecOn with
          | nil => simp [balance, Spec.balanceFrom] at hb
          | append_singleton es e _ =>
            obtain ⟨t', x'⟩ := e
            rw [balance_snoc] at hb
            cases x' with
            | charge n =>
              simp only [Balance.post] at hb
              split at hb <;> (cases hb; exact ⟨_, List.mem_append_right _ (List.mem_singleton.2 rfl)⟩)
            | read =>
              simp only [Balance.post, Option.map_eq_some_iff] at hb
              obtain ⟨_, _, hb⟩ := hb
              cases hb
              exact ⟨_, List.mem_append_right _ (List.mem_singleton.2 rfl)⟩
        obtain ⟨x', hx'⟩ := hlast
        unfold InOrder at ho
        rw [List.map_append, List.pairwise_append] at ho
        exact ho.2.2 t (List.mem_map_of_mem hx') T (by simp)
      obtain ⟨y, hy1, hy2, hy3⟩ := hd (T - t) (by omega) s
      have hL := left_pos h (T - t)
      have hL1 := left_le_one hh (show 0 ≤ T - t by omega)
      have hs0 : (0 : ℝ) ≤ s.toNat := Nat.cast_nonneg _
      have hy0 : 0 ≤ y := le_trans (mul_nonneg (mul_nonneg hs0 hL.le) (by linarith)) hy1
      have hE := decayedSum_nonneg h es t
      -- the decayed score
      have du : ((d (T - t) s).toNat : ℝ) ≤ decayedSum h es T * (1 + ε) ^ (es.length + 1) := by
        rw [hy3, decayedSum_later hh es t T, pow_succ]
        calc ((⌊y⌋₊ : Nat) : ℝ) ≤ y := Nat.floor_le hy0
          _ ≤ _ := hy2
          _ ≤ decayedSum h es t * (1 + ε) ^ es.length * left h (T - t) * (1 + ε) := by gcongr
          _ = _ := by ring
      have dl : decayedSum h es T * (1 - ε) ^ (es.length + 1) - (es.length + 1) ≤ ((d (T - t) s).toNat : ℝ) := by
        rw [hy3, decayedSum_later hh es t T, pow_succ]
        have h2 : y < ⌊y⌋₊ + 1 := Nat.lt_floor_add_one y
        have h3 : (decayedSum h es t * (1 - ε) ^ es.length - es.length) * left h (T - t) * (1 - ε) ≤ y := by
          refine le_trans ?_ hy1
          gcongr
        have h4 : (es.length : ℝ) * left h (T - t) * (1 - ε) ≤ es.length := by
          have : left h (T - t) * (1 - ε) ≤ 1 := by
            calc left h (T - t) * (1 - ε) ≤ 1 * 1 := by gcongr; linarith
              _ = 1 := by ring
          calc (es.length : ℝ) * left h (T - t) * (1 - ε) = es.length * (left h (T - t) * (1 - ε)) := by ring
            _ ≤ es.length * 1 := by gcongr
            _ = _ := by ring
        have h5 : decayedSum h es t * left h (T - t) * ((1 - ε) ^ es.length * (1 - ε)) =
            (decayedSum h es t * (1 - ε) ^ es.length - es.length) * left h (T - t) * (1 - ε) +
              (es.length : ℝ) * left h (T - t) * (1 - ε) := by ring
        rw [h5]; linarith
      cases x with
      | read =>
        show Near h ε _ (some (T, d (T - t) s))
        unfold Near; dsimp only
        rw [decayedSum_append, hlen]
        have : decayedSum h [(T, Entry.read)] T = 0 := by simp [decayedSum]
        rw [this, add_zero]
        push_cast
        exact ⟨du, dl⟩
      | charge n =>
        show Near h ε _ (some (T, d (T - t) s + n))
        unfold Near; dsimp only
        rw [decayedSum_append, hlen]
        have hn1 : decayedSum h [(T, Entry.charge n)] T = n.toNat := by simp [decayedSum, left_zero hh]
        have hadd : (d (T - t) s + n).toNat = (d (T - t) s).toNat + n.toNat := by
          have h6 : (d (T - t) s).toNat ≤ totalCharged es := hle
          have h7 : totalCharged [(T, Entry.charge n)] = n.toNat := rfl
          rw [UInt64.toNat_add, Nat.mod_eq_of_lt (by omega)]
        rw [hn1, hadd]
        have hn : (0 : ℝ) ≤ n.toNat := Nat.cast_nonneg _
        push_cast
        constructor
        · have := le_mul_of_one_le_right hn hp1
          rw [add_mul]; linarith
        · have := mul_le_of_le_one_right hn hp2
          rw [add_mul]; linarith

/-- What a query at `T` sees, against the exact sum. -/
theorem at_bounds {h : Int} (hh : 0 < h) {ε : ℝ} (h0 : 0 ≤ ε) (h1 : ε ≤ 1) {d : Decay} (hd : Rounded h ε d)
    (hni : d.NonIncreasing) (es : List (Int × Entry)) (T : Int) (ho : InOrder (es ++ [(T, .read)]))
    (hsum : totalCharged es < 2 ^ 64) :
    ((((balance d es).at d T).getD 0).toNat : ℝ) ≤ decayedSum h es T * (1 + ε) ^ (es.length + 1) ∧
    decayedSum h es T * (1 - ε) ^ (es.length + 1) - (es.length + 1) ≤ (((balance d es).at d T).getD 0).toNat := by
  have hn := near_balance hh h0 h1 hd hni (es ++ [(T, .read)]) ho (by rw [totalCharged_append]; simpa [totalCharged] using hsum)
  rw [balance_snoc] at hn
  have hz : decayedSum h [(T, Entry.read)] T = 0 := by simp [decayedSum]
  cases hb : (balance d es).at d T with
  | none =>
    rw [show (balance d es).post d T .read = none by simp [Balance.post, hb]] at hn
    have hn := hn T
    rw [decayedSum_append, hz, add_zero] at hn
    rw [hn]
    have : (0 : ℝ) ≤ es.length := Nat.cast_nonneg _
    constructor
    · simp
    · simp only [zero_mul, zero_sub, Option.getD_none]
      have h0' : ((0 : UInt64).toNat : ℝ) = 0 := by simp
      rw [h0']; linarith
  | some s =>
    rw [show (balance d es).post d T .read = some (T, s) by simp [Balance.post, hb]] at hn
    unfold Near at hn; dsimp only at hn
    rw [decayedSum_append, hz, add_zero] at hn
    simpa using hn

end KP2P

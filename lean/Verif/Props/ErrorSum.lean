import Verif.Proof.ErrorSum
import Verif.Props.ErrorHandler
import Mathlib.Analysis.Complex.ExponentialBounds
/-!
# C26 with rounding, C80, C81: the score as a sum of decayed penalties
-/

namespace KP2P
open Spec (Decay Entry balance Balance decayedSum totalCharged InOrder Rounded left chargedAfter chargedBetween)
open ErrHandler

/-! ### C80: the score is the sum of the decayed penalties -/

/-- C80. Under every history, a query sees the sum of all penalties of the address, each decayed from its own instant, up to
one point per event at the address and the relative error `ε` of the arithmetic, compounded per event. -/
theorem C80_score {h : Int} (hh : 0 < h) {ε : ℝ} (h0 : 0 ≤ ε) (h1 : ε ≤ 1) {d : Decay} (hd : Rounded h ε d)
    (hni : d.NonIncreasing) (o : ErrOpts) (hist : List (Int × Event)) (t : Int) (a : MAddr)
    (ho : InOrder (entriesFor o a.ip hist ++ [(t, .read)])) (hsum : totalCharged (entriesFor o a.ip hist) < 2 ^ 64) :
    let es := entriesFor o a.ip hist
    ∃ s, ((new.run d o hist).handle d o t (.getScore a)).2 = .score s ∧
      (s.toNat : ℝ) ≤ decayedSum h es t * (1 + ε) ^ (es.length + 1) ∧
      decayedSum h es t * (1 - ε) ^ (es.length + 1) - (es.length + 1) ≤ s.toNat := by
  intro es
  rw [reaction_getScore, bal_new_run]
  exact ⟨_, rfl, at_bounds hh h0 h1 hd hni es t ho hsum⟩

/-- C80 with exact arithmetic: the score is at most the exact sum and at most one point per event below it. -/
theorem C80_score_exact {h : Int} (hh : 0 < h) (o : ErrOpts) (hist : List (Int × Event)) (t : Int) (a : MAddr)
    (ho : InOrder (entriesFor o a.ip hist ++ [(t, .read)])) (hsum : totalCharged (entriesFor o a.ip hist) < 2 ^ 64) :
    let es := entriesFor o a.ip hist
    ∃ s, ((new.run (realDecay h) o hist).handle (realDecay h) o t (.getScore a)).2 = .score s ∧
      (s.toNat : ℝ) ≤ decayedSum h es t ∧ decayedSum h es t - (es.length + 1) ≤ s.toNat := by
  intro es
  obtain ⟨s, h1, h2, h3⟩ := C80_score hh le_rfl zero_le_one (realDecay_rounded hh) (realDecay_nonIncreasing hh) o hist t a
    ho hsum
  exact ⟨s, h1, by simpa using h2, by simpa using h3⟩

/- Two penalties one half-life apart: 200000 has become 100000 when 5000 are added. -/
example (h : Int) (hh : 0 < h) : decayedSum h [(0, .charge 200000), (h, .charge 5000)] h = 105000 := by
  have h1 := left_halflives hh 1
  simp only [Nat.cast_one, one_mul, pow_one] at h1
  simp only [decayedSum, List.map_cons, List.map_nil, List.sum_cons, List.sum_nil, sub_zero, sub_self, h1, left_zero hh]
  have h200 : (200000 : UInt64).toNat = 200000 := by decide +kernel
  have h5 : (5000 : UInt64).toNat = 5000 := by decide +kernel
  rw [h200, h5]
  norm_num
example : InOrder (entriesFor .default [1] exHist ++ [(10, .read)]) ∧
    totalCharged (entriesFor .default [1] exHist) < 2 ^ 64 :=
  ⟨by unfold InOrder; decide +kernel, by decide +kernel⟩

/-! ### C81: persistent and occasional offenders -/

/-- The charges of the last half-life count at least half. -/
theorem decayedSum_recent {h : Int} (hh : 0 < h) (es : List (Int × Entry)) (T : Int) (hT : ∀ e ∈ es, e.1 ≤ T) :
    (chargedAfter (T - h) es : ℝ) / 2 ≤ decayedSum h es T := by
  have hhalf := left_halflives hh 1
  simp only [Nat.cast_one, one_mul, pow_one] at hhalf
  induction es with
  | nil => simp [chargedAfter, totalCharged, decayedSum]
  | cons e es ih =>
    have ih := ih fun e he => hT e (List.mem_cons_of_mem _ he)
    obtain ⟨t, x⟩ := e
    have ht : t ≤ T := hT (t, x) (List.mem_cons_self ..)
    cases x with
    | read =>
      have h1 : decayedSum h ((t, Entry.read) :: es) T = decayedSum h es T := by simp [decayedSum]
      have h2 : chargedAfter (T - h) ((t, Entry.read) :: es) = chargedAfter (T - h) es := by
        unfold chargedAfter
        rw [List.filter_cons]
        split <;> rfl
      rw [h1, h2]; exact ih
    | charge n =>
      have h1 : decayedSum h ((t, Entry.charge n) :: es) T = (n.toNat : ℝ) * left h (T - t) + decayedSum h es T := by
        simp [decayedSum]
      rw [h1]
      have hn : (0 : ℝ) ≤ n.toNat := Nat.cast_nonneg _
      by_cases hc : T - h < t
      · have h2 : chargedAfter (T - h) ((t, Entry.charge n) :: es) = n.toNat + chargedAfter (T - h) es := by
          unfold chargedAfter
          rw [List.filter_cons, if_pos (by simpa using hc)]
          rfl
        rw [h2]
        have h3 : (1 / 2 : ℝ) ≤ left h (T - t) := by
          rw [← hhalf]; exact left_anti hh (by omega)
        push_cast
        nlinarith
      · have h2 : chargedAfter (T - h) ((t, Entry.charge n) :: es) = chargedAfter (T - h) es := by
          unfold chargedAfter
          rw [List.filter_cons, if_neg (by simpa using hc)]
        rw [h2]
        have := mul_nonneg hn (left_pos h (T - t)).le
        linarith

/-- C81. Whoever collects enough within one half-life is disconnected: if the penalties of the address during the last
half-life, with twice the present one, reach twice the threshold plus two points per event at the address, the present
error leads to a disconnection. -/
theorem C81_persistent {h : Int} (hh : 0 < h) (o : ErrOpts) (hist : List (Int × Event)) (t : Int) (p : Bytes) (a : MAddr)
    (e : Err) (ho : InOrder (entriesFor o a.ip hist ++ [(t, .read)]))
    (hsum : totalCharged (entriesFor o a.ip hist) + (getScoreForError o e).toNat < 2 ^ 64)
    (hmuch : 2 * (o.threshold.toNat + (entriesFor o a.ip hist).length + 1) ≤
      chargedAfter (t - h) (entriesFor o a.ip hist) + 2 * (getScoreForError o e).toNat) :
    ((new.run (realDecay h) o hist).handle (realDecay h) o t (.perr p (some a) e)).2 = .disconnect (some p) := by
  have hni := realDecay_nonIncreasing hh
  rw [C24_disconnect_nat (realDecay h) hni o hist t p a e ho hsum]
  have hb := (at_bounds hh le_rfl zero_le_one (realDecay_rounded hh) hni _ t ho (by omega)).2
  simp only [sub_zero, one_pow, mul_one] at hb
  have hT : ∀ e ∈ entriesFor o a.ip hist, e.1 ≤ t := by
    intro e he
    unfold InOrder at ho
    rw [List.map_append, List.pairwise_append] at ho
    exact ho.2.2 e.1 (List.mem_map_of_mem he) t (by simp)
  have hr := decayedSum_recent hh _ t hT
  have h2 : (2 * ((o.threshold.toNat : ℝ) + (entriesFor o a.ip hist).length + 1)) ≤
      chargedAfter (t - h) (entriesFor o a.ip hist) + 2 * ((getScoreForError o e).toNat : ℝ) := by
    exact_mod_cast hmuch
  have h3 : (o.threshold.toNat : ℝ) ≤ (((balance (realDecay h) (entriesFor o a.ip hist)).at (realDecay h) t).getD 0).toNat +
      (getScoreForError o e).toNat := by linarith
  exact_mod_cast h3

theorem totalCharged_filter_split (es : List (Int × Entry)) (P Q : Int × Entry → Bool)
    (hPQ : ∀ e, Q e = true → P e = true) :
    totalCharged (es.filter P) = totalCharged (es.filter Q) + totalCharged (es.filter fun e => P e && !Q e) := by
  induction es with
  | nil => rfl
  | cons e es ih =>
    obtain ⟨t, x⟩ := e
    simp only [List.filter_cons]
    by_cases hQ : Q (t, x) = true
    · rw [if_pos (hPQ _ hQ), if_pos hQ, if_neg (by simp [hQ])]
      cases x with
      | charge n => simp only [totalCharged]; omega
      | read => simp only [totalCharged]; exact ih
    · by_cases hP : P (t, x) = true
      · rw [if_pos hP, if_neg hQ, if_pos (by simp [hP, hQ])]
        cases x with
        | charge n => simp only [totalCharged]; omega
        | read => simp only [totalCharged]; exact ih
      · rw [if_neg hP, if_neg hQ, if_neg (by simp [hP])]
        exact ih

theorem decayedSum_filter_split (h : Int) (es : List (Int × Entry)) (T : Int) (P Q : Int × Entry → Bool)
    (hPQ : ∀ e, Q e = true → P e = true) :
    decayedSum h (es.filter P) T = decayedSum h (es.filter Q) T + decayedSum h (es.filter fun e => P e && !Q e) T := by
  induction es with
  | nil => simp [decayedSum]
  | cons e es ih =>
    have hc : ∀ e es, decayedSum h (e :: es) T = decayedSum h [e] T + decayedSum h es T := fun e es =>
      decayedSum_append h [e] es T
    simp only [List.filter_cons]
    by_cases hQ : Q e = true
    · rw [if_pos (hPQ _ hQ), if_pos hQ, if_neg (by simp [hQ]), hc e, hc e (es.filter Q), ih]; ring
    · by_cases hP : P e = true
      · rw [if_pos hP, if_neg hQ, if_pos (by simp [hP, hQ]), hc e, ih, hc e (es.filter fun e => P e && !Q e)]; ring
      · rw [if_neg hP, if_neg hQ, if_neg (by simp [hP]), ih]

/-- Charges all made at `u` or before decay at least to `left (T - u)` of their sum. -/
theorem decayedSum_old {h : Int} (hh : 0 < h) (es : List (Int × Entry)) (T u : Int) (hu : ∀ e ∈ es, e.1 ≤ u) :
    decayedSum h es T ≤ totalCharged es * left h (T - u) := by
  induction es with
  | nil => simp [decayedSum, totalCharged]
  | cons e es ih =>
    have ih := ih fun e he => hu e (List.mem_cons_of_mem _ he)
    obtain ⟨t, x⟩ := e
    have ht : t ≤ u := hu (t, x) (List.mem_cons_self ..)
    cases x with
    | read =>
      have h1 : decayedSum h ((t, Entry.read) :: es) T = decayedSum h es T := by simp [decayedSum]
      rw [h1]; exact ih
    | charge n =>
      have h1 : decayedSum h ((t, Entry.charge n) :: es) T = (n.toNat : ℝ) * left h (T - t) + decayedSum h es T := by
        simp [decayedSum]
      have h2 : totalCharged ((t, Entry.charge n) :: es) = n.toNat + totalCharged es := rfl
      have hn : (0 : ℝ) ≤ n.toNat := Nat.cast_nonneg _
      have h3 : left h (T - t) ≤ left h (T - u) := left_anti hh (by omega)
      rw [h1, h2]
      push_cast
      nlinarith [mul_le_mul_of_nonneg_left h3 hn]

/-- If no half-life window contains more than `B`, the decayed sum is at most `2 B`. -/
theorem decayedSum_windows {h : Int} (hh : 0 < h) (es : List (Int × Entry)) (T : Int) (B : Nat)
    (hT : ∀ e ∈ es, e.1 ≤ T) (hB : ∀ u, chargedBetween (u - h) u es ≤ B) : decayedSum h es T ≤ 2 * B := by
  have key : ∀ N : Nat, decayedSum h (es.filter fun e => decide (T - N * h < e.1)) T ≤ B * (2 - 2 * (1 / 2 : ℝ) ^ N) := by
    intro N
    induction N with
    | zero =>
      have : (es.filter fun e => decide (T - ((0 : Nat) : Int) * h < e.1)) = [] := by
        rw [List.filter_eq_nil_iff]
        intro e he
        have := hT e he
        simp; omega
      rw [this]
      simp [decayedSum]
    | succ N ih =>
      have hw : T - ((N + 1 : Nat) : Int) * h = T - (N : Int) * h - h := by push_cast; ring
      rw [decayedSum_filter_split h es T _ (fun e => decide (T - (N : Int) * h < e.1)) (by
        intro e he
        simp only [decide_eq_true_eq] at he ⊢
        omega)]
      have hold := decayedSum_old hh (es.filter fun e => decide (T - ((N + 1 : Nat) : Int) * h < e.1) &&
        !decide (T - (N : Int) * h < e.1)) T (T - N * h) (by
          intro e he
          have := (List.mem_filter.1 he).2
          simp only [Bool.and_eq_true, decide_eq_true_eq, Bool.not_eq_true', decide_eq_false_iff_not] at this
          omega)
      have hsub : T - (T - (N : Int) * h) = N * h := by ring
      rw [hsub, left_halflives hh N] at hold
      have hBN := hB (T - N * h)
      have heq : chargedBetween (T - N * h - h) (T - N * h) es = totalCharged (es.filter fun e =>
          decide (T - ((N + 1 : Nat) : Int) * h < e.1) && !decide (T - (N : Int) * h < e.1)) := by
        unfold chargedBetween
        congr 1
        apply List.filter_congr
        intro e _
        rw [hw]
        congr 1
        rw [← decide_not]
        exact decide_eq_decide.2 (by omega)
      rw [heq] at hBN
      have hBN' : ((totalCharged (es.filter fun e =>
          decide (T - ((N + 1 : Nat) : Int) * h < e.1) && !decide (T - (N : Int) * h < e.1)) : Nat) : ℝ) ≤ B := by
        exact_mod_cast hBN
      have hp : (0 : ℝ) ≤ (1 / 2 : ℝ) ^ N := by positivity
      have h4 := mul_le_mul_of_nonneg_right hBN' hp
      rw [pow_succ]
      linarith
  obtain ⟨N, hN⟩ : ∃ N : Nat, ∀ e ∈ es, T - N * h < e.1 := by
    clear key hB hT
    induction es with
    | nil => exact ⟨0, by simp⟩
    | cons e es ih =>
      obtain ⟨N, hN⟩ := ih
      refine ⟨max N ((T - e.1).toNat + 1), ?_⟩
      intro x hx
      have hm : ∀ k : Nat, k ≤ max N ((T - e.1).toNat + 1) → (k : Int) * h ≤ (max N ((T - e.1).toNat + 1) : Nat) * h := by
        intro k hk
        exact mul_le_mul_of_nonneg_right (by exact_mod_cast hk) hh.le
      rcases List.mem_cons.1 hx with rfl | hx
      · have h1 := hm _ (le_max_right N ((T - x.1).toNat + 1))
        have h2 : (((T - x.1).toNat + 1 : Nat) : Int) ≤ (((T - x.1).toNat + 1 : Nat) : Int) * h :=
          le_mul_of_one_le_right (by positivity) (by omega)
        omega
      · have h1 := hm _ (le_max_left N ((T - e.1).toNat + 1))
        have := hN x hx
        omega
  have hall : (es.filter fun e => decide (T - N * h < e.1)) = es := by
    rw [List.filter_eq_self]
    intro e he
    simpa using hN e he
  have := key N
  rw [hall] at this
  have hp : (0 : ℝ) ≤ (1 / 2 : ℝ) ^ N := by positivity
  have hb : (0 : ℝ) ≤ (B : ℝ) := Nat.cast_nonneg _
  nlinarith [mul_nonneg hb hp]

/-- C81. Occasional errors never lead to a disconnection: if no window of one half-life ever contains penalties above `B`
(the present one included) and `2 B` is below the threshold, the present error does not lead to a disconnection. -/
theorem C81_occasional {h : Int} (hh : 0 < h) (o : ErrOpts) (hist : List (Int × Event)) (t : Int) (p : Bytes) (a : MAddr)
    (e : Err) (ho : InOrder (entriesFor o a.ip hist ++ [(t, .read)]))
    (hsum : totalCharged (entriesFor o a.ip hist) + (getScoreForError o e).toNat < 2 ^ 64) (B : Nat)
    (hB : ∀ u, chargedBetween (u - h) u (entriesFor o a.ip hist ++ [(t, .charge (getScoreForError o e))]) ≤ B)
    (hlow : 2 * B < o.threshold.toNat) :
    ((new.run (realDecay h) o hist).handle (realDecay h) o t (.perr p (some a) e)).2 = .disconnect none := by
  have hni := realDecay_nonIncreasing hh
  have hT : ∀ e ∈ entriesFor o a.ip hist, e.1 ≤ t := by
    intro e he
    unfold InOrder at ho
    rw [List.map_append, List.pairwise_append] at ho
    exact ho.2.2 e.1 (List.mem_map_of_mem he) t (by simp)
  have hb := (at_bounds hh le_rfl zero_le_one (realDecay_rounded hh) hni _ t ho (by omega)).1
  simp only [add_zero, one_pow, mul_one] at hb
  have hw := decayedSum_windows hh (entriesFor o a.ip hist ++ [(t, .charge (getScoreForError o e))]) t B (by
    intro x hx
    rcases List.mem_append.1 hx with hx | hx
    · exact hT x hx
    · rw [List.mem_singleton.1 hx]) hB
  rw [decayedSum_append] at hw
  have h1 : decayedSum h [(t, Entry.charge (getScoreForError o e))] t = (getScoreForError o e).toNat := by
    simp [decayedSum, left_zero hh]
  rw [h1] at hw
  have hlow' : 2 * (B : ℝ) < o.threshold.toNat := by exact_mod_cast hlow
  have hlt : ((((balance (realDecay h) (entriesFor o a.ip hist)).at (realDecay h) t).getD 0).toNat : ℝ) +
      (getScoreForError o e).toNat < o.threshold.toNat := by linarith
  have hlt' : (((balance (realDecay h) (entriesFor o a.ip hist)).at (realDecay h) t).getD 0).toNat +
      (getScoreForError o e).toNat < o.threshold.toNat := by exact_mod_cast hlt
  rw [C24_disconnect_iff]
  rw [if_neg]
  intro hle
  rw [UInt64.le_iff_toNat_le, UInt64.toNat_add, Nat.mod_eq_of_lt (by
    have := o.threshold.toNat_lt; omega)] at hle
  omega

/-- C81 with the default options: under 50000 points in every half hour nobody is disconnected. -/
theorem C81_default (hist : List (Int × Event)) (t : Int) (p : Bytes) (a : MAddr) (e : Err)
    (ho : InOrder (entriesFor .default a.ip hist ++ [(t, .read)]))
    (hsum : totalCharged (entriesFor .default a.ip hist) + (getScoreForError .default e).toNat < 2 ^ 64)
    (hB : ∀ u, chargedBetween (u - 30 * 60 * second) u
      (entriesFor .default a.ip hist ++ [(t, .charge (getScoreForError .default e))]) < 50000) :
    let d := realDecay ErrOpts.default.halflife
    ((new.run d .default hist).handle d .default t (.perr p (some a) e)).2 = .disconnect none :=
  C81_occasional halflife_pos .default hist t p a e ho hsum 49999 (fun u => Nat.le_of_lt_succ (hB u)) (by decide +kernel)

/- Forty-one failed block applications within the half hour before an error of the same kind suffice. -/
example : 2 * (ErrOpts.default.threshold.toNat + (List.replicate 41 ((0 : Int), Entry.charge 5000)).length + 1) ≤
    chargedAfter (5 - 30 * 60 * second) (List.replicate 41 (0, Entry.charge 5000)) +
      2 * (getScoreForError .default (.sentinel .blockApplication)).toNat := by decide +kernel
/- A single failed block application per half hour is harmless. -/
example : ∀ u, chargedBetween (u - 30 * 60 * second) u [(0, Entry.charge 5000), (30 * 60 * second, .charge 5000)] < 50000 := by
  intro u
  unfold chargedBetween
  simp only [List.filter_cons, List.filter_nil]
  split <;> split <;> simp [totalCharged]

/-! ### C26 with rounding -/

theorem two_root_bound : (1 : ℝ) + 3.8e-13 ≤ left ErrOpts.default.halflife (-1) := by
  have hh : (ErrOpts.default.halflife : ℝ) = 1.8e12 := by
    have : ErrOpts.default.halflife = 1800000000000 := by decide +kernel
    rw [this]; norm_num
  unfold left
  rw [Real.rpow_def_of_pos (by norm_num), hh]
  have h1 := Real.add_one_le_exp (Real.log 2 * (-((-1 : Int) : ℝ) / 1.8e12))
  have h2 := Real.log_two_gt_d9
  refine le_trans ?_ h1
  push_cast
  have : (0.6931471803 : ℝ) * (- -1 / 1.8e12) ≤ Real.log 2 * (- -1 / 1.8e12) := by
    apply mul_le_mul_of_nonneg_right h2.le; norm_num
  refine le_trans ?_ (add_le_add_left this 1)
  norm_num

/-- C26 with rounding: for every way of computing the decay with a relative error of at most `2^-42` (float64 is a thousand
times better), the ban after a severe error lasts two half-lives to the nanosecond: the first query is refused strictly
before that instant and admitted strictly after it. -/
theorem C26_ban_rounded {ε : ℝ} (h0 : 0 ≤ ε) (h1 : ε ≤ 1 / 2 ^ 42) {d : Decay} (hd : Rounded ErrOpts.default.halflife ε d)
    (hist : List (Int × Event)) (t0 t : Int) (ht : t0 ≤ t) (p : Bytes) (a : MAddr) (e : Err) (s : Sentinel)
    (hs : s ∈ severe) (he : e.is s = true) (hfresh : entriesFor .default a.ip hist = []) :
    let r := ((new.run d .default (hist ++ [(t0, .perr p (some a) e)])).handle d .default t (.canConnect a)).2
    (t - t0 < 2 * ErrOpts.default.halflife → r = .allowed false) ∧
    (2 * ErrOpts.default.halflife < t - t0 → r = .allowed true) := by
  intro r
  have hr : r = .allowed (decide ((d (t - t0) 200000).toNat < 50000)) := by
    show ((new.run d .default (hist ++ [(t0, .perr p (some a) e)])).handle d .default t (.canConnect a)).2 = _
    rw [reaction_canConnect, bal_new_run]
    have hen : entriesFor .default a.ip (hist ++ [(t0, Event.perr p (some a) e)]) = [(t0, .charge 200000)] := by
      rw [entriesFor_append, hfresh]
      simp [entriesFor, Event.entryFor, score_severe e s hs he]
    rw [hen]
    have hb : balance d [(t0, .charge 200000)] = some (t0, 200000) := rfl
    rw [hb]
    simp only [Balance.at, Option.map_some]
    congr 1
  obtain ⟨y, hy1, hy2, hy3⟩ := hd (t - t0) (by omega) 200000
  have h200 : ((200000 : UInt64).toNat : ℝ) = 200000 := by
    have : (200000 : UInt64).toNat = 200000 := by decide +kernel
    rw [this]; norm_num
  rw [h200] at hy1 hy2
  have hq := two_root_bound
  have hquarter := left_halflives halflife_pos 2
  push_cast at hquarter
  have hε : ε ≤ 2.3e-13 := le_trans h1 (by norm_num)
  have hinv : left ErrOpts.default.halflife (-1) * left ErrOpts.default.halflife 1 = 1 := by
    rw [← left_add halflife_pos]; exact left_zero halflife_pos
  rw [hr, hy3]
  constructor
  · intro hlt
    have hl : left ErrOpts.default.halflife (2 * ErrOpts.default.halflife - 1) ≤ left ErrOpts.default.halflife (t - t0) :=
      left_anti halflife_pos (by omega)
    rw [sub_eq_add_neg, left_add halflife_pos, hquarter] at hl
    have hy : (50000 : ℝ) ≤ y := by
      refine le_trans ?_ hy1
      have h2 : (1 / 2 : ℝ) ^ 2 * (1 + 3.8e-13) ≤ left ErrOpts.default.halflife (t - t0) := by
        refine le_trans ?_ hl
        gcongr
      calc (50000 : ℝ) ≤ 200000 * ((1 / 2 : ℝ) ^ 2 * (1 + 3.8e-13)) * (1 - 2.3e-13) := by norm_num
        _ ≤ 200000 * left ErrOpts.default.halflife (t - t0) * (1 - ε) := by
          apply mul_le_mul
          · linarith
          · linarith
          · norm_num
          · have := left_pos ErrOpts.default.halflife (t - t0); positivity
    have : (50000 : Nat) ≤ ⌊y⌋₊ := Nat.le_floor (by exact_mod_cast hy)
    simp; omega
  · intro hgt
    have hl : left ErrOpts.default.halflife (t - t0) ≤ left ErrOpts.default.halflife (2 * ErrOpts.default.halflife + 1) :=
      left_anti halflife_pos (by omega)
    rw [left_add halflife_pos, hquarter] at hl
    have hp := left_pos ErrOpts.default.halflife 1
    have h1' : left ErrOpts.default.halflife 1 * (1 + ε) < 1 := by
      have : (1 + ε) < left ErrOpts.default.halflife (-1) := by linarith
      calc left ErrOpts.default.halflife 1 * (1 + ε) < left ErrOpts.default.halflife 1 * left ErrOpts.default.halflife (-1) := by
            gcongr
        _ = 1 := by rw [mul_comm]; exact hinv
    have hy : y < 50000 := by
      calc y ≤ 200000 * left ErrOpts.default.halflife (t - t0) * (1 + ε) := hy2
        _ ≤ 200000 * ((1 / 2) ^ 2 * left ErrOpts.default.halflife 1) * (1 + ε) := by gcongr
        _ = 50000 * (left ErrOpts.default.halflife 1 * (1 + ε)) := by ring
        _ < 50000 := by linarith
    have : ⌊y⌋₊ < 50000 := (Nat.floor_lt' (by norm_num)).2 (by exact_mod_cast hy)
    simp; omega

/- Exact arithmetic is an instance. -/
example : Rounded ErrOpts.default.halflife 0 (realDecay ErrOpts.default.halflife) := realDecay_rounded halflife_pos

end KP2P

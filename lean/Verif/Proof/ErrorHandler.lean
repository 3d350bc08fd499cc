import Verif.Model.ErrorHandler

namespace KP2P
open Spec

namespace ErrHandler

/-- The balance recorded at `ip`. -/
def bal (h : ErrHandler) (ip : Bytes) : Balance := (h.scores.get ip).map fun r => (r.lastUpdate, r.score)

theorem bal_handle (d : Decay) (o : ErrOpts) (h : ErrHandler) (t : Int) (e : Event) (ip : Bytes) :
    (h.handle d o t e).1.bal ip = match e.entryFor o ip with
      | none => h.bal ip
      | some x => (h.bal ip).post d t x := by
  cases e with
  | perr p a err =>
    cases a with
    | none => rfl
    | some a =>
      by_cases ha : ip = a.ip
      · subst ha
        simp only [handle, handleError, Event.entryFor, if_true, bal, GoMap.get_set]
        cases h.scores.get a.ip <;> simp [Balance.post, Balance.at, ScoreRec.decay]
      · have : ¬ a.ip = ip := fun e => ha e.symm
        simp [handle, handleError, Event.entryFor, bal, ha, this]
  | canConnect a =>
    by_cases ha : ip = a.ip
    · subst ha
      simp only [handle, handleCanConnect, Event.entryFor, if_true, bal]
      cases hg : h.scores.get a.ip <;> simp [Balance.post, Balance.at, ScoreRec.decay, hg]
    · have : ¬ a.ip = ip := fun e => ha e.symm
      simp only [handle, handleCanConnect, Event.entryFor, this, if_false, bal]
      cases hg : h.scores.get a.ip <;> simp [ha]
  | getScore a =>
    by_cases ha : ip = a.ip
    · subst ha
      simp only [handle, handleGetScore, Event.entryFor, if_true, bal]
      cases hg : h.scores.get a.ip <;> simp [Balance.post, Balance.at, ScoreRec.decay, hg]
    · have : ¬ a.ip = ip := fun e => ha e.symm
      simp only [handle, handleGetScore, Event.entryFor, this, if_false, bal]
      cases hg : h.scores.get a.ip <;> simp [ha]

theorem bal_run (d : Decay) (o : ErrOpts) (h : ErrHandler) (hist : List (Int × Event)) (ip : Bytes) :
    (h.run d o hist).bal ip = balanceFrom d (h.bal ip) (entriesFor o ip hist) := by
  induction hist generalizing h with
  | nil => rfl
  | cons e hist ih =>
    obtain ⟨t, e⟩ := e
    simp only [run]
    rw [ih, bal_handle]
    unfold entriesFor
    simp only [List.filterMap_cons]
    cases e.entryFor o ip <;> simp [balanceFrom]

/-- After any history the record of an address is the balance of its own entries. -/
theorem bal_new_run (d : Decay) (o : ErrOpts) (hist : List (Int × Event)) (ip : Bytes) :
    (new.run d o hist).bal ip = balance d (entriesFor o ip hist) := bal_run d o new hist ip

theorem reaction_canConnect (d : Decay) (o : ErrOpts) (h : ErrHandler) (t : Int) (a : MAddr) :
    (h.handle d o t (.canConnect a)).2 =
      .allowed (match (h.bal a.ip).at d t with | none => true | some s => decide (s < o.reconnect)) := by
  simp only [handle, handleCanConnect, bal]
  cases h.scores.get a.ip <;> rfl

theorem reaction_getScore (d : Decay) (o : ErrOpts) (h : ErrHandler) (t : Int) (a : MAddr) :
    (h.handle d o t (.getScore a)).2 = .score (((h.bal a.ip).at d t).getD 0) := by
  simp only [handle, handleGetScore, bal]
  cases h.scores.get a.ip <;> simp [Balance.at, ScoreRec.decay]

theorem reaction_perr (d : Decay) (o : ErrOpts) (h : ErrHandler) (t : Int) (p : Bytes) (a : MAddr) (e : Err) :
    (h.handle d o t (.perr p (some a) e)).2 =
      .disconnect (if ((h.bal a.ip).at d t).getD 0 + getScoreForError o e ≥ o.threshold then some p else none) := by
  simp only [handle, handleError, bal]
  split <;> rename_i heq <;> simp [heq, Balance.at, ScoreRec.decay]

end ErrHandler

/-! ### Accounts -/

theorem balance_append (d : Decay) (a b : List (Int × Entry)) :
    balance d (a ++ b) = balanceFrom d (balance d a) b := by
  unfold balance
  generalize (none : Balance) = x
  induction a generalizing x with
  | nil => rfl
  | cons e a ih => obtain ⟨t, y⟩ := e; exact ih _

theorem balance_snoc (d : Decay) (a : List (Int × Entry)) (t : Int) (x : Entry) :
    balance d (a ++ [(t, x)]) = (balance d a).post d t x := by
  rw [balance_append]; rfl

theorem entriesFor_append (o : ErrOpts) (ip : Bytes) (a b : List (Int × ErrHandler.Event)) :
    entriesFor o ip (a ++ b) = entriesFor o ip a ++ entriesFor o ip b := by
  unfold entriesFor; rw [List.filterMap_append]

theorem totalCharged_append (a b : List (Int × Entry)) :
    totalCharged (a ++ b) = totalCharged a + totalCharged b := by
  induction a with
  | nil => simp [totalCharged]
  | cons e a ih => obtain ⟨t, x⟩ := e; cases x <;> simp [totalCharged, ih]; omega

theorem uadd_toNat_le (a b : UInt64) : (a + b).toNat ≤ a.toNat + b.toNat := by
  rw [UInt64.toNat_add]; exact Nat.mod_le _ _

/-- The score never exceeds what was charged, and the record is never in the future of the last entry. -/
theorem balance_le (d : Decay) (hd : d.NonIncreasing) (es : List (Int × Entry)) (ho : InOrder es) :
    ∀ t s, balance d es = some (t, s) →
      s.toNat ≤ totalCharged es ∧ ∃ e ∈ es, e.1 = t := by
  induction es using List.reverseRecOn with
  | nil => intro t s h; simp [balance, balanceFrom] at h
  | append_singleton es e ih =>
    obtain ⟨te, x⟩ := e
    unfold InOrder at ho
    rw [List.map_append, List.pairwise_append] at ho
    have ih := ih ho.1
    intro t s h
    rw [balance_snoc] at h
    rw [totalCharged_append]
    have hdec : ∀ t0 s0, balance d es = some (t0, s0) → (d (te - t0) s0).toNat ≤ totalCharged es := by
      intro t0 s0 hb
      obtain ⟨h1, e, he, h2⟩ := ih t0 s0 hb
      have hle : t0 ≤ te := by
        rw [← h2]
        exact ho.2.2 _ (List.mem_map.2 ⟨e, he, rfl⟩) te (by simp)
      have := hd (te - t0) (by omega) s0
      have := UInt64.le_iff_toNat_le.1 this
      omega
    cases x with
    | charge n =>
      cases hb : balance d es with
      | none =>
        rw [hb] at h
        simp only [Balance.post, Balance.at, Option.map_none, Option.some.injEq, Prod.mk.injEq] at h
        obtain ⟨rfl, rfl⟩ := h
        refine ⟨?_, (te, .charge n), by simp, rfl⟩
        simp [totalCharged]
      | some b =>
        obtain ⟨t0, s0⟩ := b
        rw [hb] at h
        simp only [Balance.post, Balance.at, Option.map_some, Option.some.injEq, Prod.mk.injEq] at h
        obtain ⟨rfl, rfl⟩ := h
        refine ⟨?_, (te, .charge n), by simp, rfl⟩
        have := uadd_toNat_le (d (te - t0) s0) n
        have := hdec t0 s0 hb
        simp only [totalCharged]
        omega
    | read =>
      cases hb : balance d es with
      | none => rw [hb] at h; simp [Balance.post, Balance.at] at h
      | some b =>
        obtain ⟨t0, s0⟩ := b
        rw [hb] at h
        simp only [Balance.post, Balance.at, Option.map_some, Option.some.injEq, Prod.mk.injEq] at h
        obtain ⟨rfl, rfl⟩ := h
        refine ⟨?_, (te, .read), by simp, rfl⟩
        have := hdec t0 s0 hb
        simp only [totalCharged]
        omega

theorem balance_at_le (d : Decay) (hd : d.NonIncreasing) (es : List (Int × Entry)) (t : Int)
    (ho : InOrder (es ++ [(t, .read)])) :
    (((balance d es).at d t).getD 0).toNat ≤ totalCharged es := by
  cases hb : balance d es with
  | none => simp [Balance.at]
  | some b =>
    obtain ⟨t0, s0⟩ := b
    have := (balance_le d hd (es ++ [(t, .read)]) ho t (d (t - t0) s0)
      (by rw [balance_snoc, hb]; rfl)).1
    rw [totalCharged_append] at this
    simpa [Balance.at, totalCharged] using this

/-! ### The real decay law -/

/-- The factor by which a score shrinks in time `t`. -/
noncomputable def factor (h : Int) (t : Int) : ℝ := Real.exp (-1 * (Real.log 2 / (h : ℝ)) * (t : ℝ))

theorem factor_pos (h t : Int) : 0 < factor h t := Real.exp_pos _

theorem factor_add (h s t : Int) : factor h (s + t) = factor h s * factor h t := by
  unfold factor
  rw [← Real.exp_add]
  congr 1
  push_cast
  ring

theorem log2_div_pos {h : Int} (hh : 0 < h) : 0 < Real.log 2 / (h : ℝ) := by
  apply div_pos (Real.log_pos (by norm_num))
  exact_mod_cast hh

theorem factor_le_one {h : Int} (hh : 0 < h) {t : Int} (ht : 0 ≤ t) : factor h t ≤ 1 := by
  unfold factor
  rw [Real.exp_le_one_iff]
  have h1 := log2_div_pos hh
  have : (0 : ℝ) ≤ t := by exact_mod_cast ht
  nlinarith

theorem factor_lt_one {h : Int} (hh : 0 < h) {t : Int} (ht : 0 < t) : factor h t < 1 := by
  unfold factor
  rw [Real.exp_lt_one_iff]
  have h1 := log2_div_pos hh
  have : (0 : ℝ) < t := by exact_mod_cast ht
  nlinarith

/-- After `n` half-lives the factor is `2^-n`. -/
theorem factor_halflives {h : Int} (hh : 0 < h) (n : Nat) : factor h (n * h) = (1 / 2) ^ n := by
  induction n with
  | zero => simp [factor]
  | succ n ih =>
    have : ((n + 1 : Nat) : Int) * h = n * h + h := by push_cast; ring
    rw [this, factor_add, ih, pow_succ]
    congr 1
    unfold factor
    have hne : (h : ℝ) ≠ 0 := by exact_mod_cast hh.ne'
    have : -1 * (Real.log 2 / (h : ℝ)) * (h : ℝ) = -Real.log 2 := by field_simp
    rw [this, Real.exp_neg, Real.exp_log (by norm_num)]
    norm_num

theorem factor_lt_iff {h : Int} (hh : 0 < h) (s t : Int) : factor h t < factor h s ↔ s < t := by
  unfold factor
  rw [Real.exp_lt_exp]
  have h1 := log2_div_pos hh
  constructor
  · intro hlt
    have : (s : ℝ) < t := by nlinarith
    exact_mod_cast this
  · intro hlt
    have : (s : ℝ) < t := by exact_mod_cast hlt
    nlinarith

theorem realDecay_toNat {h : Int} (hh : 0 < h) {t : Int} (ht : 0 ≤ t) (s : UInt64) :
    (realDecay h t s).toNat = ⌊(s.toNat : ℝ) * factor h t⌋₊ := by
  unfold realDecay factor
  rw [UInt64.toNat_ofNat', Nat.mod_eq_of_lt]
  have h1 := factor_le_one hh ht
  unfold factor at h1
  have : ⌊(s.toNat : ℝ) * Real.exp (-1 * (Real.log 2 / (h : ℝ)) * (t : ℝ))⌋₊ ≤ s.toNat := by
    apply Nat.floor_le_of_le
    have : (0 : ℝ) ≤ s.toNat := Nat.cast_nonneg _
    nlinarith
  have := s.toNat_lt
  omega

theorem realDecay_nonIncreasing {h : Int} (hh : 0 < h) : (realDecay h).NonIncreasing := by
  intro t ht s
  rw [UInt64.le_iff_toNat_le, realDecay_toNat hh ht]
  apply Nat.floor_le_of_le
  have : (0 : ℝ) ≤ s.toNat := Nat.cast_nonneg _
  have := factor_le_one hh ht
  nlinarith

/-- Reading at a later instant removes at least one point. -/
theorem realDecay_lt {h : Int} (hh : 0 < h) {t : Int} (ht : 0 < t) (s : UInt64) (hs : s ≠ 0) :
    (realDecay h t s).toNat < s.toNat := by
  rw [realDecay_toNat hh ht.le, Nat.floor_lt (mul_nonneg (Nat.cast_nonneg _) (factor_pos h t).le)]
  have : 0 < s.toNat := by
    rcases Nat.eq_zero_or_pos s.toNat with h0 | h0
    · exact absurd (UInt64.toNat_inj.1 h0) hs
    · exact h0
  have : (0 : ℝ) < s.toNat := by exact_mod_cast this
  have := factor_lt_one hh ht
  nlinarith

theorem realDecay_zero (h : Int) (t : Int) : realDecay h t 0 = 0 := by
  simp [realDecay]

/-- Reads at instants `ts` of an account. -/
def reads (ts : List Int) : List (Int × Entry) := ts.map fun t => (t, .read)

/-- After `n` reads the score lies between the ideal value minus `n` and the ideal value. -/
theorem reads_bounds {h : Int} (hh : 0 < h) (ts : List Int) (t0 : Int) (s0 : UInt64)
    (ho : (t0 :: ts).Pairwise (· ≤ ·)) :
    ∃ s, balanceFrom (realDecay h) (some (t0, s0)) (reads ts) =
        some (ts.getLastD t0, s) ∧
      (s.toNat : ℝ) ≤ s0.toNat * factor h (ts.getLastD t0 - t0) ∧
      (s0.toNat : ℝ) * factor h (ts.getLastD t0 - t0) - ts.length ≤ s.toNat ∧
      (ts ≠ [] → (s0.toNat : ℝ) * factor h (ts.getLastD t0 - t0) - ts.length < s.toNat) := by
  induction ts generalizing t0 s0 with
  | nil => exact ⟨s0, rfl, by simp [factor], by simp [factor], by simp⟩
  | cons t ts ih =>
    have hle : t0 ≤ t := (List.pairwise_cons.1 ho).1 t (by simp)
    have ho' := (List.pairwise_cons.1 ho).2
    obtain ⟨s, h1, h2, h3, h4⟩ := ih t (realDecay h (t - t0) s0) ho'
    have hlast : t ≤ ts.getLastD t := by
      cases hts : ts with
      | nil => simp
      | cons a l =>
        rw [List.getLastD_cons]
        apply (List.pairwise_cons.1 ho').1
        rw [hts]
        by_cases hl : l = []
        · subst hl; simp
        · rw [List.getLastD_eq_getLast?, List.getLast?_eq_some_getLast hl]
          exact List.mem_cons_of_mem _ (List.getLast_mem hl)
    refine ⟨s, ?_, ?_⟩
    · rw [List.getLastD_cons, ← h1]
      rfl
    · rw [List.getLastD_cons]
      have hf : factor h (ts.getLastD t - t0) = factor h (t - t0) * factor h (ts.getLastD t - t) := by
        rw [← factor_add]; congr 1; omega
      have hdec := realDecay_toNat hh (by omega : 0 ≤ t - t0) s0
      have hle' : ((realDecay h (t - t0) s0).toNat : ℝ) ≤ s0.toNat * factor h (t - t0) := by
        rw [hdec]; exact Nat.floor_le (mul_nonneg (Nat.cast_nonneg _) (factor_pos _ _).le)
      have hgt : (s0.toNat : ℝ) * factor h (t - t0) - 1 < (realDecay h (t - t0) s0).toNat := by
        rw [hdec]
        have := Nat.lt_floor_add_one ((s0.toNat : ℝ) * factor h (t - t0))
        linarith
      have hp := factor_pos h (ts.getLastD t - t)
      have hl1 := factor_le_one hh (by omega : 0 ≤ ts.getLastD t - t)
      have key : (s0.toNat : ℝ) * factor h (ts.getLastD t - t0) - (t :: ts).length < s.toNat := by
        rw [hf]
        simp only [List.length_cons]
        push_cast
        nlinarith
      refine ⟨?_, key.le, fun _ => key⟩
      rw [hf]
      nlinarith

/-- After `n` reads at strictly increasing instants at least `n` points are gone. -/
theorem reads_drain {h : Int} (hh : 0 < h) (ts : List Int) (t0 : Int) (s0 : UInt64)
    (ho : (t0 :: ts).Pairwise (· < ·)) :
    ∃ t s, balanceFrom (realDecay h) (some (t0, s0)) (reads ts) = some (t, s) ∧
      s.toNat ≤ s0.toNat - ts.length := by
  induction ts generalizing t0 s0 with
  | nil => exact ⟨t0, s0, rfl, by simp⟩
  | cons t ts ih =>
    have hlt : t0 < t := (List.pairwise_cons.1 ho).1 t (by simp)
    obtain ⟨t', s, h1, h2⟩ := ih t (realDecay h (t - t0) s0) (List.pairwise_cons.1 ho).2
    refine ⟨t', s, ?_, ?_⟩
    · rw [← h1]; rfl
    · simp only [List.length_cons]
      by_cases h0 : s0 = 0
      · subst h0; rw [realDecay_zero] at h2; simp at h2 ⊢; exact h2
      · have := realDecay_lt hh (by omega : 0 < t - t0) s0 h0
        omega

end KP2P

import Verif.Proof.ErrorHandler
import Mathlib.Algebra.Order.Floor.Semifield
/-!
# C23 – C30: peer error scores
-/

namespace KP2P
open Spec ErrHandler

/-! ## C23: per-address isolation -/

/-- C23. The reaction to any event at address `ip` depends only on the sub-history of that address: two histories
with the same entries for `ip` — whatever happened at other addresses — react alike, for every decay law. -/
theorem C23_isolation (d : Decay) (o : ErrOpts) (h₁ h₂ : List (Int × Event)) (a : MAddr) (t : Int)
    (heq : entriesFor o a.ip h₁ = entriesFor o a.ip h₂) :
    (∀ p e, ((new.run d o h₁).handle d o t (.perr p (some a) e)).2 =
      ((new.run d o h₂).handle d o t (.perr p (some a) e)).2) ∧
    ((new.run d o h₁).handle d o t (.canConnect a)).2 = ((new.run d o h₂).handle d o t (.canConnect a)).2 ∧
    ((new.run d o h₁).handle d o t (.getScore a)).2 = ((new.run d o h₂).handle d o t (.getScore a)).2 := by
  simp only [reaction_perr, reaction_canConnect, reaction_getScore, bal_new_run, heq, implies_true, and_self]

/-- C23. Dropping any number of events at other addresses changes nothing. -/
theorem C23_other_addresses (d : Decay) (o : ErrOpts) (h₁ h₂ mid : List (Int × Event)) (a : MAddr) (t : Int)
    (hmid : ∀ e ∈ mid, e.2.entryFor o a.ip = none) :
    ((new.run d o (h₁ ++ mid ++ h₂)).handle d o t (.getScore a)).2 =
      ((new.run d o (h₁ ++ h₂)).handle d o t (.getScore a)).2 := by
  apply (C23_isolation d o _ _ a t _).2.2
  have : entriesFor o a.ip mid = [] := by
    unfold entriesFor
    rw [List.filterMap_eq_nil_iff]
    intro e he; rw [hmid e he]; rfl
  simp [entriesFor_append, this]

/-- C23. All peers and ports behind one address share one score. -/
theorem C23_shared (d : Decay) (o : ErrOpts) (h : ErrHandler) (t : Int) (a b : MAddr) (hip : a.ip = b.ip) :
    h.handle d o t (.canConnect a) = h.handle d o t (.canConnect b) ∧
    h.handle d o t (.getScore a) = h.handle d o t (.getScore b) ∧
    ∀ p q e, (h.handle d o t (.perr p (some a) e)).1 = (h.handle d o t (.perr q (some b) e)).1 := by
  simp [handle, handleCanConnect, handleGetScore, handleError, hip]

example : entriesFor .default [1] [(0, .perr [7] (some ⟨[1], [[80]]⟩) (.sentinel .forkBomb)),
    (5, .perr [8] (some ⟨[2], []⟩) (.sentinel .forkBomb)), (9, .canConnect ⟨[1], [[81]]⟩)] =
    [(0, .charge 200000), (9, .read)] := by decide +kernel

/-! ## C24: disconnection -/

/-- C24. Processing an error of a peer with known address requests the disconnection of exactly that peer iff the
decayed previous score of its address (0 if it has none) plus the score of this error reaches the threshold.
Additions are 64-bit here; see C28 for the absence of wrap-around. -/
theorem C24_disconnect_iff (d : Decay) (o : ErrOpts) (hist : List (Int × Event)) (t : Int) (p : Bytes)
    (a : MAddr) (e : Err) :
    ((new.run d o hist).handle d o t (.perr p (some a) e)).2 =
      .disconnect (if o.threshold ≤ ((balance d (entriesFor o a.ip hist)).at d t).getD 0 + getScoreForError o e
        then some p else none) := by
  rw [reaction_perr, bal_new_run]

/-- C24 over unbounded integers: if the scores charged to the address stay below `2^64`, the disconnection happens
iff decayed score plus error score is at least the threshold as natural numbers. -/
theorem C24_disconnect_nat (d : Decay) (hd : d.NonIncreasing) (o : ErrOpts) (hist : List (Int × Event)) (t : Int)
    (p : Bytes) (a : MAddr) (e : Err)
    (ho : InOrder (entriesFor o a.ip hist ++ [(t, .read)]))
    (hsum : totalCharged (entriesFor o a.ip hist) + (getScoreForError o e).toNat < 2 ^ 64) :
    (((new.run d o hist).handle d o t (.perr p (some a) e)).2 = .disconnect (some p) ↔
      o.threshold.toNat ≤
        (((balance d (entriesFor o a.ip hist)).at d t).getD 0).toNat + (getScoreForError o e).toNat) := by
  rw [C24_disconnect_iff]
  have h1 := balance_at_le d hd _ t ho
  have h2 : ((((balance d (entriesFor o a.ip hist)).at d t).getD 0) + getScoreForError o e).toNat =
      (((balance d (entriesFor o a.ip hist)).at d t).getD 0).toNat + (getScoreForError o e).toNat := by
    rw [UInt64.toNat_add, Nat.mod_eq_of_lt (by omega)]
  have h3 : o.threshold ≤ ((balance d (entriesFor o a.ip hist)).at d t).getD 0 + getScoreForError o e ↔
      o.threshold.toNat ≤
        (((balance d (entriesFor o a.ip hist)).at d t).getD 0).toNat + (getScoreForError o e).toNat := by
    rw [UInt64.le_iff_toNat_le, h2]
  rw [← h3]
  split <;> simp_all

/-- Constant score (no decay), used for examples. -/
def noDecay : Decay := fun _ s => s

theorem noDecay_nonIncreasing : noDecay.NonIncreasing := fun _ _ _ => UInt64.le_refl _

def exHist : List (Int × Event) := [(0, .perr [7] (some ⟨[1], []⟩) (.sentinel .blockApplication)),
  (4, .canConnect ⟨[1], []⟩)]

example : InOrder (entriesFor .default [1] exHist ++ [(10, .read)]) ∧
    totalCharged (entriesFor .default [1] exHist) + (getScoreForError .default (.sentinel .forkBomb)).toNat < 2 ^ 64 :=
  ⟨by unfold InOrder; decide +kernel, by decide +kernel⟩
example : ((new.run noDecay .default exHist).handle noDecay .default 10
    (.perr [7] (some ⟨[1], []⟩) (.sentinel .forkBomb))).2 = .disconnect (some [7]) := by decide +kernel
example : ((new.run noDecay .default exHist).handle noDecay .default 10
    (.perr [7] (some ⟨[1], []⟩) (.sentinel .blockApplication))).2 = .disconnect none := by decide +kernel

/-! ## C25: connection permission -/

/-- C25. A connection to an address is allowed iff the address has no recorded error or its decayed score is below
the reconnect threshold. -/
theorem C25_allowed_iff (d : Decay) (o : ErrOpts) (hist : List (Int × Event)) (t : Int) (a : MAddr) :
    ((new.run d o hist).handle d o t (.canConnect a)).2 = .allowed true ↔
      (balance d (entriesFor o a.ip hist)) = none ∨
      ∃ s, (balance d (entriesFor o a.ip hist)).at d t = some s ∧ s < o.reconnect := by
  rw [reaction_canConnect, bal_new_run]
  cases balance d (entriesFor o a.ip hist) <;> simp [Balance.at]

/-- C25. An address without recorded error was never charged. -/
theorem C25_no_record (d : Decay) (es : List (Int × Entry)) :
    balance d es = none ↔ ∀ t n, (t, Entry.charge n) ∉ es := by
  induction es using List.reverseRecOn with
  | nil => simp [balance, balanceFrom]
  | append_singleton es e ih =>
    obtain ⟨t, x⟩ := e
    rw [balance_snoc]
    cases x with
    | charge n =>
      constructor
      · intro h
        cases hb : balance d es <;> simp [hb, Balance.post, Balance.at] at h
      · intro h; exact absurd (by simp) (h t n)
    | read =>
      constructor
      · intro h
        have : balance d es = none := by
          cases hb : balance d es <;> simp [hb, Balance.post, Balance.at] at h ⊢
        intro t' n hm
        rw [List.mem_append] at hm
        rcases hm with hm | hm
        · exact ih.1 this t' n hm
        · simp at hm
      · intro h
        have : balance d es = none := ih.2 fun t' n hm => h t' n (by simp [hm])
        simp [this, Balance.post, Balance.at]

/-- C25. Without further errors at the address, once allowed it stays allowed: whatever else happens in between
(queries, errors at other addresses), as long as the clock does not go back. -/
theorem C25_stays_allowed (d : Decay) (hd : d.NonIncreasing) (o : ErrOpts) (hist later : List (Int × Event))
    (t t' : Int) (a : MAddr)
    (h : ((new.run d o hist).handle d o t (.canConnect a)).2 = .allowed true)
    (hno : ∀ e ∈ entriesFor o a.ip later, e.2 = .read)
    (ho : InOrder ((t, .read) :: entriesFor o a.ip later ++ [(t', .read)])) :
    ((new.run d o (hist ++ (t, .canConnect a) :: later)).handle d o t' (.canConnect a)).2 = .allowed true := by
  rw [C25_allowed_iff] at h ⊢
  have he : entriesFor o a.ip (hist ++ (t, Event.canConnect a) :: later) =
      entriesFor o a.ip hist ++ (t, .read) :: entriesFor o a.ip later := by
    simp [entriesFor, Event.entryFor]
  rw [he, balance_append]
  simp only [balanceFrom]
  generalize entriesFor o a.ip later = es at *
  have key : ∀ (es : List (Int × Entry)) (t : Int) (s : UInt64), (∀ e ∈ es, e.2 = .read) →
      InOrder ((t, .read) :: es ++ [(t', .read)]) → s < o.reconnect →
      ∃ s', (balanceFrom d (some (t, s)) es).at d t' = some s' ∧ s' < o.reconnect := by
    intro es
    induction es with
    | nil =>
      intro t s _ ho hs
      refine ⟨d (t' - t) s, rfl, ?_⟩
      have : t ≤ t' := by simpa [InOrder] using ho
      exact UInt64.lt_of_le_of_lt (hd _ (by omega) s) hs
    | cons e es ih =>
      intro t s hr ho hs
      obtain ⟨te, x⟩ := e
      have hx : x = .read := hr (te, x) (by simp)
      subst hx
      have hle : t ≤ te := by
        unfold InOrder at ho; simp at ho; exact ho.1.1
      have ho' : InOrder ((te, .read) :: es ++ [(t', .read)]) := by
        unfold InOrder at ho ⊢
        exact (List.pairwise_cons.1 ho).2
      exact ih te (d (te - t) s) (fun e he => hr e (by simp [he])) ho'
        (UInt64.lt_of_le_of_lt (hd _ (by omega) s) hs)
  rcases h with h | ⟨s, h, hs⟩
  · left
    rw [h]
    have : ∀ (es : List (Int × Entry)), (∀ e ∈ es, e.2 = .read) → balanceFrom d none es = none := by
      intro es
      induction es with
      | nil => intro _; rfl
      | cons e es ih =>
        intro hr
        obtain ⟨te, x⟩ := e
        have hx : x = .read := hr (te, x) (by simp)
        subst hx
        exact ih (fun e he => hr e (by simp [he]))
    exact this es hno
  · right
    have : (balance d (entriesFor o a.ip hist)).post d t .read = some (t, s) := by
      simp only [Balance.post, h, Option.map_some]
    rw [this]
    exact key es t s hno ho hs

/-- C25. The gater: every hook that knows the remote address gives exactly the answer for that address; a dial by
peer id without known address, and the final "upgraded" hook, are always allowed. -/
theorem C25_gater (answer : MAddr → Bool) :
    (∀ a, intercept answer (.peerDial (some a)) = answer a) ∧ intercept answer (.peerDial none) = true ∧
    (∀ a, intercept answer (.addrDial a) = answer a) ∧ (∀ a, intercept answer (.accept a) = answer a) ∧
    (∀ a, intercept answer (.secured a) = answer a) ∧ intercept answer .upgraded = true :=
  ⟨fun _ => rfl, rfl, fun _ => rfl, fun _ => rfl, fun _ => rfl, rfl⟩

example : ((new.run noDecay .default exHist).handle noDecay .default 5 (.canConnect ⟨[1], []⟩)).2 = .allowed true := by
  decide +kernel
example : ((new.run noDecay .default [(0, .perr [7] (some ⟨[1], []⟩) (.sentinel .forkBomb))]).handle noDecay .default 5
    (.canConnect ⟨[1], []⟩)).2 = .allowed false := by decide +kernel
example : (∀ e ∈ entriesFor .default [1] [(7, .getScore ⟨[1], []⟩)], e.2 = .read) ∧
    InOrder ((5, .read) :: entriesFor .default [1] [(7, .getScore ⟨[1], []⟩)] ++ [(9, .read)]) :=
  ⟨by decide +kernel, by unfold InOrder; decide +kernel⟩

/-! ## C26: severe errors -/

/-- The errors that must disconnect at once. -/
def severe : List Sentinel := [.chainIDMismatch, .chainNotConnected, .checkpointMismatch, .forkBomb, .protocolMismatch]

theorem score_severe (e : Err) (s : Sentinel) (hs : s ∈ severe) (he : e.is s = true) :
    getScoreForError .default e = 200000 := by
  have huniq : ∀ (e : Err) (s t : Sentinel), e.is s = true → e.is t = decide (s = t) := by
    intro e
    induction e with
    | sentinel x => intro s t h; simp [Err.is] at h; subst h; rfl
    | wrap i _ ih _ => intro s t h; exact ih s t h
    | note i ih => intro s t h; exact ih s t h
    | _ => intro s t h; simp [Err.is] at h
  unfold getScoreForError
  simp only [huniq e s _ he]
  unfold severe at hs
  simp only [List.mem_cons, List.not_mem_nil, or_false] at hs
  rcases hs with rfl | rfl | rfl | rfl | rfl <;> decide +kernel

/-- C26. With default options one severe error disconnects the peer, whatever the history (as long as the total
charged to the address stays below `2^64`). -/
theorem C26_severe_disconnects (d : Decay) (hd : d.NonIncreasing) (hist : List (Int × Event)) (t : Int) (p : Bytes)
    (a : MAddr) (e : Err) (s : Sentinel) (hs : s ∈ severe) (he : e.is s = true)
    (ho : InOrder (entriesFor .default a.ip hist ++ [(t, .read)]))
    (hsum : totalCharged (entriesFor .default a.ip hist) + 200000 < 2 ^ 64) :
    ((new.run d .default hist).handle d .default t (.perr p (some a) e)).2 = .disconnect (some p) := by
  have hsc := score_severe e s hs he
  rw [C24_disconnect_nat d hd .default hist t p a e ho (by rw [hsc]; exact hsum), hsc]
  have h1 : ErrOpts.default.threshold.toNat = 100000 := by decide +kernel
  have h2 : (200000 : UInt64).toNat = 200000 := by decide +kernel
  omega

/-- The default half-life is positive. -/
theorem halflife_pos : 0 < ErrOpts.default.halflife := by decide +kernel

/-- C26. An address without previous errors that commits a severe error at `t0` is refused at the first query at
any instant up to and including two half-lives later, and admitted after that (exact real arithmetic). -/
theorem C26_ban_exact (hist : List (Int × Event)) (t0 t : Int) (ht : t0 ≤ t) (p : Bytes) (a : MAddr) (e : Err)
    (s : Sentinel) (hs : s ∈ severe) (he : e.is s = true)
    (hfresh : entriesFor .default a.ip hist = []) :
    let d := realDecay ErrOpts.default.halflife
    ((new.run d .default (hist ++ [(t0, .perr p (some a) e)])).handle d .default t (.canConnect a)).2 =
      .allowed (decide (2 * ErrOpts.default.halflife < t - t0)) := by
  intro d
  rw [reaction_canConnect, bal_new_run]
  have hen : entriesFor .default a.ip (hist ++ [(t0, Event.perr p (some a) e)]) = [(t0, .charge 200000)] := by
    rw [entriesFor_append, hfresh]
    simp [entriesFor, Event.entryFor, score_severe e s hs he]
  rw [hen]
  have hb : balance d [(t0, .charge 200000)] = some (t0, 200000) := rfl
  rw [hb]
  simp only [Balance.at, Option.map_some]
  congr 1
  rw [decide_eq_decide, UInt64.lt_iff_toNat_lt, realDecay_toNat halflife_pos (by omega)]
  have hr : ErrOpts.default.reconnect.toNat = 50000 := by decide +kernel
  have h200 : (200000 : UInt64).toNat = 200000 := by decide +kernel
  rw [hr, h200, Nat.floor_lt (mul_nonneg (Nat.cast_nonneg _) (factor_pos _ _).le),
    ← factor_lt_iff halflife_pos]
  have h2 := factor_halflives halflife_pos 2
  push_cast at h2
  rw [h2]
  push_cast
  constructor <;> intro h <;> norm_num at h ⊢ <;> linarith

/-- C26. However often the address is queried meanwhile, the ban never lasts longer than two half-lives. -/
theorem C26_ban_at_most (t0 t : Int) (ts : List Int) (ho : (t0 :: ts ++ [t]).Pairwise (· ≤ ·))
    (ht : 2 * ErrOpts.default.halflife < t - t0) (p : Bytes) (a : MAddr) (e : Err)
    (s : Sentinel) (hs : s ∈ severe) (he : e.is s = true) :
    let d := realDecay ErrOpts.default.halflife
    ((new.run d .default ((t0, .perr p (some a) e) :: ts.map fun t => (t, .canConnect a))).handle d .default t
      (.canConnect a)).2 = .allowed true := by
  intro d
  rw [reaction_canConnect, bal_new_run]
  have hen : entriesFor .default a.ip ((t0, Event.perr p (some a) e) :: ts.map fun t => (t, Event.canConnect a)) =
      (t0, .charge 200000) :: reads ts := by
    simp [entriesFor, Event.entryFor, score_severe e s hs he, reads, List.filterMap_map]
  rw [hen]
  have ho' : (t0 :: (ts ++ [t])).Pairwise (· ≤ ·) := ho
  obtain ⟨s', h1, h2, _⟩ := reads_bounds halflife_pos (ts ++ [t]) t0 200000 ho'
  have hb : (balance d ((t0, .charge 200000) :: reads ts)).post d t .read = some ((ts ++ [t]).getLastD t0, s') := by
    rw [← h1]
    have : reads (ts ++ [t]) = reads ts ++ [(t, .read)] := by simp [reads]
    rw [this]
    have hb2 : ∀ (es : List (Int × Entry)) (b : Balance), balanceFrom d b (es ++ [(t, .read)]) =
        (balanceFrom d b es).post d t .read := by
      intro es
      induction es with
      | nil => intro b; rfl
      | cons e es ih => intro b; obtain ⟨_, _⟩ := e; exact ih _
    rw [hb2]
    rfl
  have hat : (balance d ((t0, .charge 200000) :: reads ts)).at d t = some s' := by
    cases hx : (balance d ((t0, .charge 200000) :: reads ts)).at d t with
    | none => simp [Balance.post, hx] at hb
    | some v => simp [Balance.post, hx] at hb; rw [hb]
  rw [hat]
  simp only [Reaction.allowed.injEq, decide_eq_true_eq]
  rw [UInt64.lt_iff_toNat_lt]
  have hr : ErrOpts.default.reconnect.toNat = 50000 := by decide +kernel
  have h200 : (200000 : UInt64).toNat = 200000 := by decide +kernel
  rw [h200] at h2
  simp only [List.getLastD_concat] at h2
  have hlt := (factor_lt_iff halflife_pos (2 * ErrOpts.default.halflife) (t - t0)).2 ht
  have hf := factor_halflives halflife_pos 2
  push_cast at hf h2
  rw [hf] at hlt
  have : (s'.toNat : ℝ) < 50000 := by norm_num at hlt; linarith
  rw [hr]
  exact_mod_cast this

example : (Err.wrap (.sentinel .forkBomb) (.other 3)).is .forkBomb = true ∧ Sentinel.forkBomb ∈ severe ∧
    entriesFor .default [1] [(0, .perr [7] (some ⟨[2], []⟩) (.other 1))] = [] := by decide +kernel
example : ([0, 5, 9].Pairwise (fun a b : Int => a ≤ b)) := by decide +kernel

/-! ## C27: the half-life law and truncating reads -/

/-- C27. If the score is not read in between, the reading after time `t` is the recorded score times `2^(-t/h)`,
rounded down; in particular it is halved (and rounded down) after every half-life. -/
theorem C27_halflife_law {h : Int} (hh : 0 < h) (s : UInt64) :
    (∀ t : Int, 0 ≤ t → (realDecay h t s).toNat = ⌊(s.toNat : ℝ) * Real.exp (-(Real.log 2 / h * t))⌋₊) ∧
    (∀ n : Nat, (realDecay h (n * h) s).toNat = s.toNat / 2 ^ n) := by
  constructor
  · intro t ht
    rw [realDecay_toNat hh ht]
    unfold factor
    congr 3
    ring
  · intro n
    rw [realDecay_toNat hh (by positivity), factor_halflives hh]
    have : (s.toNat : ℝ) * (1 / 2) ^ n = (s.toNat : ℝ) / ((2 ^ n : Nat) : ℝ) := by
      push_cast; rw [one_div, inv_pow]; rfl
    rw [this, Nat.floor_div_natCast, Nat.floor_natCast]

/-- C27, what holds with reads in between: after `n` queries (at non-decreasing instants) the score is at most the
ideal value and more than the ideal value minus `n`. -/
theorem C27_reads_bounds_partial {h : Int} (hh : 0 < h) (o : ErrOpts) (p : Bytes) (a : MAddr) (e : Err) (t0 : Int)
    (ts : List Int) (hne : ts ≠ []) (ho : (t0 :: ts).Pairwise (· ≤ ·)) :
    let T := ts.getLast hne
    ∃ s, balance (realDecay h) (entriesFor o a.ip
          ((t0, Event.perr p (some a) e) :: ts.map fun t => (t, Event.getScore a))) = some (T, s) ∧
      (s.toNat : ℝ) ≤ (getScoreForError o e).toNat * Real.exp (-(Real.log 2 / h * (T - t0))) ∧
      ((getScoreForError o e).toNat : ℝ) * Real.exp (-(Real.log 2 / h * (T - t0))) - ts.length < s.toNat := by
  intro T
  have hen : entriesFor o a.ip ((t0, Event.perr p (some a) e) :: ts.map fun t => (t, Event.getScore a)) =
      (t0, .charge (getScoreForError o e)) :: reads ts := by
    simp [entriesFor, Event.entryFor, reads, List.filterMap_map]
  obtain ⟨s, h1, h2, _, h4⟩ := reads_bounds hh ts t0 (getScoreForError o e) ho
  have hT : ts.getLastD t0 = T := by
    rw [List.getLastD_eq_getLast?, List.getLast?_eq_some_getLast hne]; rfl
  have hfac : factor h (T - t0) = Real.exp (-(Real.log 2 / h * (T - t0))) := by
    unfold factor; push_cast; congr 1; ring
  rw [hT] at h1 h2 h4
  rw [hfac] at h2 h4
  refine ⟨s, ?_, h2, h4 hne⟩
  rw [hen]
  exact h1

/-- C27 refuted as stated: every query at a later instant removes at least one point, however short the interval.
After `n` queries at strictly increasing instants at least `n` points are gone. -/
theorem C27_every_read_costs {h : Int} (hh : 0 < h) (o : ErrOpts) (p : Bytes) (a : MAddr) (e : Err) (t0 : Int)
    (ts : List Int) (ho : (t0 :: ts).Pairwise (· < ·)) :
    ∃ t s, balance (realDecay h) (entriesFor o a.ip
          ((t0, Event.perr p (some a) e) :: ts.map fun t => (t, Event.canConnect a))) = some (t, s) ∧
      s.toNat ≤ (getScoreForError o e).toNat - ts.length := by
  have hen : entriesFor o a.ip ((t0, Event.perr p (some a) e) :: ts.map fun t => (t, Event.canConnect a)) =
      (t0, .charge (getScoreForError o e)) :: reads ts := by
    simp [entriesFor, Event.entryFor, reads, List.filterMap_map]
  rw [hen]
  exact reads_drain hh ts t0 (getScoreForError o e) ho

/-- C27 refuted, consequence: a freshly banned address (fork bomb, default options) that knocks 150001 times or
more, once per nanosecond, is admitted right after the last knock (0.15 ms instead of one hour for the smallest
such number). -/
theorem C27_decay_refuted (p : Bytes) (a : MAddr) (n : Nat) (hn : 150001 ≤ n) :
    let d := realDecay ErrOpts.default.halflife
    let knocks := (List.range n).map fun (i : Nat) => ((i : Int) + 1, Event.canConnect a)
    ((new.run d .default ((0, .perr p (some a) (.sentinel .forkBomb)) :: knocks)).handle d .default (n + 1)
      (.canConnect a)).2 = .allowed true := by
  intro d knocks
  rw [reaction_canConnect, bal_new_run]
  let ts : List Int := (List.range n).map fun (i : Nat) => (i : Int) + 1
  have hk : knocks = ts.map fun t => (t, Event.canConnect a) := by
    simp [knocks, ts, List.map_map, Function.comp_def]
  have hp : ((0 : Int) :: ts ++ [(n : Int) + 1]).Pairwise (· < ·) := by
    have : (0 : Int) :: ts ++ [(n : Int) + 1] = (List.range (n + 2)).map fun i : Nat => (i : Int) := by
      rw [List.range_succ, List.range_succ_eq_map]
      simp [ts, Function.comp_def]
    rw [this, List.pairwise_map]
    exact List.pairwise_lt_range.imp (fun h => by exact_mod_cast h)
  have hen : entriesFor .default a.ip ((0, Event.perr p (some a) (.sentinel .forkBomb)) ::
      ts.map fun t => (t, Event.canConnect a)) = (0, .charge 200000) :: reads ts := by
    have : getScoreForError .default (.sentinel .forkBomb) = 200000 := by decide +kernel
    simp [entriesFor, Event.entryFor, reads, List.filterMap_map, this]
  rw [hk, hen]
  obtain ⟨t, s, h1, h2⟩ := reads_drain halflife_pos (ts ++ [(n : Int) + 1]) 0 200000 hp
  have hb2 : ∀ (es : List (Int × Entry)) (b : Balance) (t : Int), balanceFrom d b (es ++ [(t, .read)]) =
      (balanceFrom d b es).post d t .read := by
    intro es
    induction es with
    | nil => intro b t; rfl
    | cons e es ih => intro b t; obtain ⟨_, _⟩ := e; exact ih _ _
  have hr : reads (ts ++ [(n : Int) + 1]) = reads ts ++ [((n : Int) + 1, .read)] := by simp [reads]
  rw [hr] at h1
  have h1' := (hb2 (reads ts) (some (0, 200000)) (n + 1)).symm.trans h1
  have hb : balance d ((0, .charge 200000) :: reads ts) = balanceFrom d (some (0, 200000)) (reads ts) := rfl
  rw [hb]
  cases hx : (balanceFrom d (some (0, 200000)) (reads ts)).at d (n + 1) with
  | none => rfl
  | some v =>
    simp only [Balance.post, hx, Option.map_some, Option.some.injEq, Prod.mk.injEq] at h1'
    simp only [Reaction.allowed.injEq, decide_eq_true_eq]
    rw [h1'.2, UInt64.lt_iff_toNat_lt]
    have h50 : ErrOpts.default.reconnect.toNat = 50000 := by decide +kernel
    have h200 : (200000 : UInt64).toNat = 200000 := by decide +kernel
    have hlen : (ts ++ [(n : Int) + 1]).length = n + 1 := by simp [ts]
    rw [hlen, h200] at h2
    omega

example : ([0, 1, 2].Pairwise (fun a b : Int => a < b)) ∧ (0 : Int) < ErrOpts.default.halflife := by decide +kernel

/-! ## C28: wrap-around -/

/-- C28. The score of an address never exceeds the sum of the scores of the errors reported for it. -/
theorem C28_bounded_by_sum (d : Decay) (hd : d.NonIncreasing) (o : ErrOpts) (hist : List (Int × Event)) (t : Int)
    (a : MAddr) (ho : InOrder (entriesFor o a.ip hist ++ [(t, .read)])) :
    ∃ s, ((new.run d o hist).handle d o t (.getScore a)).2 = .score s ∧
      s.toNat ≤ totalCharged (entriesFor o a.ip hist) := by
  rw [reaction_getScore, bal_new_run]
  exact ⟨_, rfl, balance_at_le d hd _ t ho⟩

/-- C28. As long as that sum is below `2^64` no addition wraps around. -/
theorem C28_no_wrap (d : Decay) (hd : d.NonIncreasing) (o : ErrOpts) (hist : List (Int × Event)) (t : Int)
    (a : MAddr) (e : Err) (ho : InOrder (entriesFor o a.ip hist ++ [(t, .read)]))
    (hsum : totalCharged (entriesFor o a.ip hist) + (getScoreForError o e).toNat < 2 ^ 64) :
    (((balance d (entriesFor o a.ip hist)).at d t).getD 0 + getScoreForError o e).toNat =
      (((balance d (entriesFor o a.ip hist)).at d t).getD 0).toNat + (getScoreForError o e).toNat := by
  have h1 := balance_at_le d hd _ t ho
  rw [UInt64.toNat_add, Nat.mod_eq_of_lt (by omega)]

/-- C28, beyond the bound: two errors worth `2^63` each leave the offender with score 0, neither disconnected the
second time nor refused. -/
theorem C28_wrap_beyond (a : MAddr) (p : Bytes) :
    let o : ErrOpts := { ErrOpts.default with forkBomb := 2 ^ 63 }
    let hist : List (Int × Event) := [(0, .perr p (some a) (.sentinel .forkBomb))]
    ((new.run noDecay o hist).handle noDecay o 0 (.perr p (some a) (.sentinel .forkBomb))).2 = .disconnect none ∧
    ((new.run noDecay o (hist ++ [(0, .perr p (some a) (.sentinel .forkBomb))])).handle noDecay o 0
      (.canConnect a)).2 = .allowed true := by
  intro o hist
  have hsc : getScoreForError o (.sentinel .forkBomb) = 2 ^ 63 := by decide +kernel
  constructor
  · rw [reaction_perr, bal_new_run]
    simp only [hist, entriesFor, Event.entryFor, List.filterMap_cons, List.filterMap_nil, if_true, Option.map_some,
      hsc]
    have : ¬ ((balance noDecay [(0, .charge (2 ^ 63))]).at noDecay 0).getD 0 + 2 ^ 63 ≥ o.threshold := by
      decide +kernel
    rw [if_neg this]
  · rw [reaction_canConnect, bal_new_run]
    simp only [hist, entriesFor, Event.entryFor, List.filterMap_cons, List.filterMap_nil, if_true, Option.map_some,
      hsc, List.cons_append, List.nil_append]
    decide +kernel

/-! ## C29: classification -/

/-- The sentinel an error wraps, if any. -/
def Err.root : Err → Option Sentinel
  | .sentinel s => some s
  | .wrap e _ => e.root
  | .note e => e.root
  | _ => none

/-- The option associated with a sentinel; sentinels without own option count as unknown errors. -/
def optionFor (o : ErrOpts) : Sentinel → UInt64
  | .deserialization => o.deserialization
  | .serialization => o.serialization
  | .blockIrreversibility => o.blockIrreversibility
  | .blockApplication => o.blockApplication
  | .transactionApplication => o.transactionApplication
  | .invalidNonce => o.invalidNonce
  | .chainIDMismatch => o.chainIDMismatch
  | .chainNotConnected => o.chainNotConnected
  | .checkpointMismatch => o.checkpointMismatch
  | .localRPC => o.localRPC
  | .peerRPC => o.peerRPC
  | .localRPCTimeout => o.localRPCTimeout
  | .peerRPCTimeout => o.peerRPCTimeout
  | .processRequestTimeout => o.processRequestTimeout
  | .unknownPreviousBlock => o.unknownPreviousBlock
  | .blockApplicationTimeout => o.blockApplicationTimeout
  | .maxPendingBlocks => o.maxPendingBlocks
  | .forkBomb => o.forkBomb
  | .maxHeight => o.maxHeight
  | .protocolMismatch => o.protocolMismatch
  | .blockState => o.unknown
  | .protocolMissing => o.unknown

theorem Err.is_eq_root (e : Err) (s : Sentinel) : e.is s = decide (e.root = some s) := by
  induction e with
  | sentinel x => simp [Err.is, Err.root]
  | wrap i _ ih _ => exact ih
  | note i ih => exact ih
  | _ => simp [Err.is, Err.root]

/-- C29. Every error gets the option of the sentinel it wraps, or the unknown-error score. -/
theorem C29_classification (o : ErrOpts) (e : Err) :
    getScoreForError o e = match e.root with
      | some s => optionFor o s
      | none => o.unknown := by
  unfold getScoreForError
  simp only [Err.is_eq_root]
  cases e.root with
  | none => simp
  | some s => cases s <;> simp [optionFor]

/-- C29. Wrapping adds context but never changes the score; what was only rendered as text never counts. -/
theorem C29_wrapping (o : ErrOpts) (e shown : Err) :
    getScoreForError o (.wrap e shown) = getScoreForError o e ∧ getScoreForError o (.note e) = getScoreForError o e := by
  simp [C29_classification, Err.root]

example : getScoreForError .default (.note (.wrap (.sentinel .blockApplication) (.sentinel .forkBomb))) = 5000 := by
  decide +kernel

/-! ## C30: accountability -/

/-- C30, what holds: an error of a peer with known address raises the score of that address by the score of the
error (as natural numbers while the total stays below `2^64`). -/
theorem C30_known_address_partial (d : Decay) (hd : d.NonIncreasing) (o : ErrOpts) (hist : List (Int × Event))
    (t : Int) (p : Bytes) (a : MAddr) (e : Err) (ho : InOrder (entriesFor o a.ip hist ++ [(t, .read)]))
    (hsum : totalCharged (entriesFor o a.ip hist) + (getScoreForError o e).toNat < 2 ^ 64) :
    ∃ s, balance d (entriesFor o a.ip (hist ++ [(t, .perr p (some a) e)])) = some (t, s) ∧
      s.toNat = (((balance d (entriesFor o a.ip hist)).at d t).getD 0).toNat + (getScoreForError o e).toNat := by
  have hn := C28_no_wrap d hd o hist t a e ho hsum
  rw [entriesFor_append]
  have : entriesFor o a.ip [(t, Event.perr p (some a) e)] = [(t, .charge (getScoreForError o e))] := by
    simp [entriesFor, Event.entryFor]
  rw [this, balance_snoc]
  refine ⟨((balance d (entriesFor o a.ip hist)).at d t).getD 0 + getScoreForError o e, ?_, hn⟩
  simp only [Balance.post]
  cases (balance d (entriesFor o a.ip hist)).at d t <;> simp

/-- C30 refuted: an error of a peer whose address is not known when the error is processed (it has no tracked
connection) changes no score and disconnects nobody — even a fork bomb. -/
theorem C30_accountability_refuted (d : Decay) (o : ErrOpts) (h : ErrHandler) (t : Int) (p : Bytes) (e : Err) :
    h.handle d o t (.perr p none e) = (h, .disconnect none) := rfl

example : ((new.run noDecay .default [(0, .perr [7] none (.sentinel .forkBomb))]).handle noDecay .default 1
    (.getScore ⟨[1], []⟩)).2 = .score 0 := by decide +kernel

end KP2P

import Verif.Model.VersionWait
import Verif.Props.ProtoVersion
import Mathlib.Tactic.Ring
import Mathlib.Tactic.ByContra
/-!
# C127: waiting for a peer's protocol version
-/

namespace KP2P
open KP2P.PeerConn KP2P.ProtoVersion KP2P.VersionWait

namespace VersionWait

theorem settle_none (parse : Bytes → Option Version) (x : Seen) : settle parse x = none ↔ ¬ Conclusive x := by
  cases x with
  | missing e =>
    simp only [settle, ProtoVersion.read, Conclusive]
    cases e.is .protocolMismatch <;> simp
  | notText => simp [settle, ProtoVersion.read, Conclusive, Err.is]
  | text s =>
    simp only [settle, ProtoVersion.read, Conclusive]
    cases s with
    | nil => simp
    | cons c s =>
      simp only [List.length_cons, Nat.zero_lt_succ, gt_iff_lt, if_true, ne_eq, reduceCtorEq, not_false_eq_true, not_true_eq_false, iff_false]
      split
      · split <;> simp
      · simp

theorem settle_get (parse : Bytes → Option Version) (x : Seen) (r : Except Err Version) (h : settle parse x = some r) :
    get parse [x] = r := by
  unfold ProtoVersion.get
  unfold settle at h
  cases hr : ProtoVersion.read x with
  | error e =>
    simp only [hr] at h ⊢
    split at h
    · simp_all
    · cases h
  | ok s =>
    simp only [hr] at h ⊢
    split at h
    · split at h
      · split at h <;> simp_all
      · simp_all
    · cases h

theorem settle_verdict (parse : Bytes → Option Version) (x : Seen) (r : Except Err Version) (h : settle parse x = some r) :
    Conclusive x ∧ Verdict parse x r := by
  have hc : Conclusive x := by
    by_contra hn
    rw [(settle_none parse x).2 hn] at h; cases h
  obtain ⟨r', hv, hg⟩ := C38_first_conclusive parse [] [] x (by simp) hc
  rw [List.nil_append, settle_get parse x r h] at hg
  exact ⟨hc, hg ▸ hv⟩

/-- What holds of every state of a call made at `t0`. -/
structure Inv (parse : Bytes → Option Version) (tm : Times) (t0 : Time) (s : State) : Prop where
  deadline : s.deadline = t0 + tm.timeout
  start : t0 ≤ s.now
  cancelled : ∀ c, s.cancelledAt = some c → c ≤ s.now
  /-- the look-ups are `retry` apart -/
  apart : ∀ (post : List (Time × Seen)) (a : Time) x (b : Time) y pre, s.reads = post ++ (b, y) :: (a, x) :: pre → a + tm.retry ≤ b
  first : ∀ a ∈ s.reads, a.1 ≤ s.now ∧ a.1 ≤ t0 + tm.timeout + tm.lag
  count : s.reads = [] ∨ ∃ a x rest, s.reads = (a, x) :: rest ∧ t0 + rest.length * tm.retry ≤ a
  where_ : match s.pc with
    | .looking => s.now ≤ t0 + tm.timeout + tm.lag ∧ (∀ c, s.cancelledAt = some c → s.now ≤ c + tm.lag) ∧
        (∀ a ∈ s.reads, ¬ Conclusive a.2) ∧
        (s.reads = [] ∨ ∃ a x rest, s.reads = (a, x) :: rest ∧ a + tm.retry ≤ s.now)
    | .waiting t => s.now ≤ t0 + tm.timeout + tm.lag ∧ (∀ c, s.cancelledAt = some c → s.now ≤ c + tm.lag) ∧
        (∀ a ∈ s.reads, ¬ Conclusive a.2) ∧
        ∃ a x rest, s.reads = (a, x) :: rest ∧ t = a + tm.retry ∧ s.now ≤ t + tm.lag
    | .returned r e => e ≤ s.now ∧ e ≤ t0 + tm.timeout + tm.lag ∧ (∀ c, s.cancelledAt = some c → e ≤ c + tm.lag) ∧
        ((∃ x rest, s.reads = (e, x) :: rest ∧ Conclusive x ∧ Verdict parse x r ∧ ∀ a ∈ rest, ¬ Conclusive a.2) ∨
          (r = .error (.sentinel .protocolMissing) ∧ (∀ a ∈ s.reads, ¬ Conclusive a.2) ∧
            (t0 + tm.timeout ≤ e ∨ ∃ c, s.cancelledAt = some c ∧ c ≤ e) ∧
            ∃ a x rest, s.reads = (a, x) :: rest ∧ e ≤ a + tm.retry + tm.lag))

theorem inv_init (parse : Bytes → Option Version) (tm : Times) (t0 : Time) : Inv parse tm t0 (init tm t0) := by
  refine ⟨rfl, Int.le_refl _, (by simp [init]), ?_, (by simp [init]), Or.inl rfl, ?_⟩
  · intro post a x b y pre h
    simp [init] at h
  · refine ⟨?_, by simp [init], by simp [init], Or.inl rfl⟩
    show t0 ≤ t0 + (tm.timeout : Int) + tm.lag
    omega

theorem apart_cons {tm : Times} {l : List (Time × Seen)} {now : Time} {x : Seen}
    (h : ∀ (post : List (Time × Seen)) (a : Time) x (b : Time) y pre, l = post ++ (b, y) :: (a, x) :: pre → a + tm.retry ≤ b)
    (hl : l = [] ∨ ∃ a x rest, l = (a, x) :: rest ∧ a + tm.retry ≤ now) :
    ∀ (post : List (Time × Seen)) (a : Time) z (b : Time) y pre, (now, x) :: l = post ++ (b, y) :: (a, z) :: pre → a + tm.retry ≤ b := by
  intro post a z b y pre he
  cases post with
  | nil =>
    simp only [List.nil_append, List.cons.injEq, Prod.mk.injEq] at he
    obtain ⟨⟨rfl, rfl⟩, rfl⟩ := he
    rcases hl with hl | ⟨a', x', rest, hl, hle⟩
    · cases hl
    · simp only [List.cons.injEq, Prod.mk.injEq] at hl
      obtain ⟨⟨rfl, rfl⟩, rfl⟩ := hl
      exact hle
  | cons p post =>
    simp only [List.cons_append, List.cons.injEq] at he
    exact h post a z b y pre he.2

theorem count_cons {tm : Times} {l : List (Time × Seen)} {now t0 : Time} {x : Seen} (h0 : t0 ≤ now)
    (h : l = [] ∨ ∃ a x rest, l = (a, x) :: rest ∧ t0 + rest.length * tm.retry ≤ a)
    (hl : l = [] ∨ ∃ a x rest, l = (a, x) :: rest ∧ a + tm.retry ≤ now) :
    ∃ a x' rest, (now, x) :: l = (a, x') :: rest ∧ t0 + rest.length * tm.retry ≤ a := by
  refine ⟨now, x, l, rfl, ?_⟩
  rcases h with h | ⟨a, y, rest, h, hle⟩
  · subst h; simpa using h0
  · rcases hl with hl | ⟨a', x', rest', hl, hle'⟩
    · rw [hl] at h; cases h
    · rw [h] at hl
      simp only [List.cons.injEq, Prod.mk.injEq] at hl
      obtain ⟨⟨rfl, rfl⟩, rfl⟩ := hl
      rw [h]
      simp only [List.length_cons, Nat.cast_add, Nat.cast_one]
      have : ((rest.length : Int) + 1) * tm.retry = rest.length * tm.retry + tm.retry := by ring
      omega

theorem inv_step {parse : Bytes → Option Version} {tm : Times} {t0 : Time} {s s' : State} {l : Label}
    (hi : Inv parse tm t0 s) (h : step parse tm s l = some s') : Inv parse tm t0 s' := by
  obtain ⟨hd, hs, hcan, hap, hf, hct, hw⟩ := hi
  cases l with
  | look x =>
    simp only [step] at h
    cases hp : s.pc with
    | waiting t => rw [hp] at h; cases h
    | returned r e => rw [hp] at h; cases h
    | looking =>
      rw [hp] at h hw
      simp only at h hw
      obtain ⟨hw1, hw2, hw3, hw4⟩ := hw
      have hfirst : ∀ a ∈ (s.now, x) :: s.reads, a.1 ≤ s.now ∧ a.1 ≤ t0 + tm.timeout + tm.lag := by
        intro a ha
        rcases List.mem_cons.1 ha with rfl | ha
        · exact ⟨Int.le_refl _, hw1⟩
        · exact hf a ha
      cases hset : settle parse x with
      | some r =>
        rw [hset] at h
        simp only [Option.some.injEq] at h
        subst h
        obtain ⟨hc, hv⟩ := settle_verdict parse x r hset
        exact ⟨hd, hs, hcan, apart_cons hap hw4, hfirst, Or.inr (count_cons hs hct hw4),
          ⟨Int.le_refl _, hw1, hw2, Or.inl ⟨x, s.reads, rfl, hc, hv, hw3⟩⟩⟩
      | none =>
        rw [hset] at h
        simp only [Option.some.injEq] at h
        subst h
        have hnc : ¬ Conclusive x := (settle_none parse x).1 hset
        refine ⟨hd, hs, hcan, apart_cons hap hw4, hfirst, Or.inr (count_cons hs hct hw4), ⟨hw1, hw2, ?_, s.now, x, s.reads, rfl, rfl, ?_⟩⟩
        · intro a ha
          rcases List.mem_cons.1 ha with rfl | ha
          · exact hnc
          · exact hw3 a ha
        · show s.now ≤ s.now + (tm.retry : Int) + tm.lag
          omega
  | timer =>
    simp only [step] at h
    cases hp : s.pc with
    | looking => rw [hp] at h; cases h
    | returned r e => rw [hp] at h; cases h
    | waiting t =>
      rw [hp] at h hw
      simp only at h hw
      obtain ⟨hw1, hw2, hw3, a, x, rest, hr, ht, _⟩ := hw
      split at h
      · rename_i hle
        simp only [Option.some.injEq] at h
        subst h
        exact ⟨hd, hs, hcan, hap, hf, hct, ⟨hw1, hw2, hw3, Or.inr ⟨a, x, rest, hr, ht ▸ hle⟩⟩⟩
      · cases h
  | expire =>
    simp only [step] at h
    cases hp : s.pc with
    | looking => rw [hp] at h; cases h
    | returned r e => rw [hp] at h; cases h
    | waiting t =>
      rw [hp] at h hw
      simp only at h hw
      obtain ⟨hw1, hw2, hw3, a, x, rest, hr, ht, hlag⟩ := hw
      split at h
      · rename_i hor
        simp only [Option.some.injEq] at h
        subst h
        refine ⟨hd, hs, hcan, hap, hf, hct, ⟨Int.le_refl _, hw1, hw2, Or.inr ⟨rfl, hw3, ?_, a, x, rest, hr, ht ▸ hlag⟩⟩⟩
        rcases hor with hor | hor
        · left; rw [hd] at hor; exact hor
        · right
          obtain ⟨c, hc⟩ := Option.isSome_iff_exists.1 hor
          exact ⟨c, hc, hcan c hc⟩
      · cases h
  | cancel =>
    simp only [step] at h
    cases hc : s.cancelledAt with
    | some c => rw [hc] at h; cases h
    | none =>
      rw [hc] at h
      simp only [Option.some.injEq] at h
      subst h
      refine ⟨hd, hs, ?_, hap, hf, hct, ?_⟩
      · intro c hc'
        simp only [Option.some.injEq] at hc'
        exact hc' ▸ Int.le_refl _
      · have hnew : ∀ c, some s.now = some c → ∀ e : Time, e ≤ s.now → e ≤ c + tm.lag := by
          intro c hcc e he
          simp only [Option.some.injEq] at hcc
          omega
        cases hp : s.pc with
        | looking =>
          simp only [hp] at hw ⊢
          exact ⟨hw.1, fun c hcc => hnew c hcc _ (Int.le_refl _), hw.2.2⟩
        | waiting t =>
          simp only [hp] at hw ⊢
          exact ⟨hw.1, fun c hcc => hnew c hcc _ (Int.le_refl _), hw.2.2⟩
        | returned r e =>
          simp only [hp] at hw ⊢
          refine ⟨hw.1, hw.2.1, fun c hcc => hnew c hcc _ hw.1, ?_⟩
          rcases hw.2.2.2 with h1 | ⟨h1, h2, h3, h4⟩
          · exact Or.inl h1
          · refine Or.inr ⟨h1, h2, Or.inl ?_, h4⟩
            rcases h3 with h3 | ⟨c, h3, _⟩
            · exact h3
            · rw [hc] at h3; cases h3
  | tick d =>
    simp only [step] at h
    cases hp : s.pc with
    | looking => rw [hp] at h; cases h
    | waiting t =>
      rw [hp] at h hw
      simp only at h hw
      split at h
      · rename_i hle
        simp only [Option.some.injEq] at h
        subst h
        obtain ⟨hw1, hw2, hw3, a, x, rest, hr, ht, hlag⟩ := hw
        refine ⟨hd, ?_, ?_, hap, ?_, hct, ?_⟩
        · show t0 ≤ s.now + (d : Int); omega
        · intro c hc; have := hcan c hc; show c ≤ s.now + (d : Int); omega
        · intro b hb; have := hf b hb; exact ⟨by show b.1 ≤ s.now + (d : Int); omega, this.2⟩
        · refine ⟨?_, ?_, hw3, a, x, rest, hr, ht, hle.1⟩
          · have := hle.2.1; rw [hd] at this; exact this
          · intro c hc; have := hle.2.2; rw [hc] at this; exact this
      · cases h
    | returned r e =>
      rw [hp] at h hw
      simp only [Option.some.injEq] at h hw
      subst h
      refine ⟨hd, ?_, ?_, hap, ?_, hct, ?_⟩
      · show t0 ≤ s.now + (d : Int); omega
      · intro c hc; have := hcan c hc; show c ≤ s.now + (d : Int); omega
      · intro b hb; have := hf b hb; exact ⟨by show b.1 ≤ s.now + (d : Int); omega, this.2⟩
      · exact ⟨by show e ≤ s.now + (d : Int); omega, hw.2⟩

theorem inv_run {parse : Bytes → Option Version} {tm : Times} {t0 : Time} {s s' : State} {ls : List Label}
    (hi : Inv parse tm t0 s) (h : run parse tm s ls = some s') : Inv parse tm t0 s' := by
  induction ls generalizing s with
  | nil => simp only [run, Option.some.injEq] at h; exact h ▸ hi
  | cons l ls ih =>
    simp only [run] at h
    cases hst : step parse tm s l with
    | none => rw [hst] at h; cases h
    | some s1 => rw [hst] at h; exact ih (inv_step hi hst) h

/-- The call is still running. -/
def Running (s : State) : Prop := ∀ r e, s.pc ≠ .returned r e

end VersionWait

/-- C127. The call returns in time: as long as it runs, no more than the time-out has passed since it was made, or, once the
caller has cancelled, no time to speak of since then. -/
theorem C127_in_time (parse : Bytes → Option Version) (tm : Times) (t0 : Time) (ls : List VersionWait.Label) (s : VersionWait.State)
    (h : VersionWait.run parse tm (VersionWait.init tm t0) ls = some s) :
    (Running s → s.now ≤ t0 + tm.timeout + tm.lag ∧ ∀ c, s.cancelledAt = some c → s.now ≤ c + tm.lag) ∧
    ∀ r e, s.pc = .returned r e → e ≤ t0 + tm.timeout + tm.lag ∧ ∀ c, s.cancelledAt = some c → e ≤ c + tm.lag := by
  have hi := VersionWait.inv_run (VersionWait.inv_init parse tm t0) h
  have hw := hi.where_
  constructor
  · intro hrun
    cases hp : s.pc with
    | looking => rw [hp] at hw; exact ⟨hw.1, hw.2.1⟩
    | waiting t => rw [hp] at hw; exact ⟨hw.1, hw.2.1⟩
    | returned r e => exact absurd hp (hrun r e)
  · intro r e hp
    rw [hp] at hw
    exact ⟨hw.2.1, hw.2.2.1⟩

/-- C127. It cannot get stuck: from wherever it is it can return. -/
theorem C127_can_return (parse : Bytes → Option Version) (tm : Times) (t0 : Time) (ls : List VersionWait.Label)
    (s : VersionWait.State) (h : VersionWait.run parse tm (VersionWait.init tm t0) ls = some s) :
    ∃ ls' s' r e, VersionWait.run parse tm s ls' = some s' ∧ s'.pc = .returned r e ∧ s'.cancelledAt = s.cancelledAt := by
  have hi := VersionWait.inv_run (VersionWait.inv_init parse tm t0) h
  have hw := hi.where_
  cases hp : s.pc with
  | returned r e => exact ⟨[], s, r, e, rfl, hp, rfl⟩
  | looking =>
    refine ⟨[.look .notText], { s with pc := .returned (.error (.sentinel .protocolMismatch)) s.now, reads := (s.now, .notText) :: s.reads }, _, _, ?_, rfl, rfl⟩
    simp only [VersionWait.run, VersionWait.step, hp, VersionWait.settle, ProtoVersion.read]
    rfl
  | waiting t =>
    by_cases hc : s.cancelledAt.isSome = true
    · exact ⟨[.expire], { s with pc := .returned (.error (.sentinel .protocolMissing)) s.now }, _, _,
        by simp [VersionWait.run, VersionWait.step, hp, hc], rfl, rfl⟩
    · have hcn : s.cancelledAt = none := by cases hx : s.cancelledAt <;> simp_all
      have hwait : ∀ s1 : VersionWait.State, s1.pc = .waiting t → t ≤ s1.now →
          ∃ s', VersionWait.run parse tm s1 [.timer, .look .notText] = some s' ∧
            s'.pc = .returned (.error (.sentinel .protocolMismatch)) s1.now ∧ s'.cancelledAt = s1.cancelledAt := by
        intro s1 h1 h2
        refine ⟨{ s1 with pc := .returned (.error (.sentinel .protocolMismatch)) s1.now, reads := (s1.now, .notText) :: s1.reads }, ?_, rfl, rfl⟩
        simp only [VersionWait.run, VersionWait.step, h1, if_pos h2, VersionWait.settle, ProtoVersion.read]
        rfl
      by_cases ht : t ≤ s.now
      · obtain ⟨s', h1, h2, h3⟩ := hwait s hp ht
        exact ⟨_, s', _, _, h1, h2, h3⟩
      · by_cases hdl : s.deadline ≤ s.now
        · exact ⟨[.expire], { s with pc := .returned (.error (.sentinel .protocolMissing)) s.now }, _, _,
            by simp [VersionWait.run, VersionWait.step, hp, hdl], rfl, rfl⟩
        · by_cases hlt : t ≤ s.deadline
          · have hnow : s.now + ((t - s.now).toNat : Int) = t := by omega
            have hstep : VersionWait.step parse tm s (.tick (t - s.now).toNat) = some { s with now := t } := by
              simp only [VersionWait.step, hp, hcn, Option.getD_none, hnow]
              rw [if_pos (by omega)]
            obtain ⟨s', h1, h2, h3⟩ := hwait { s with now := t } hp (Int.le_refl _)
            refine ⟨.tick (t - s.now).toNat :: [.timer, .look .notText], s', _, _, ?_, h2, h3⟩
            rw [VersionWait.run, hstep]
            exact h1
          · have hnow : s.now + ((s.deadline - s.now).toNat : Int) = s.deadline := by omega
            have hstep : VersionWait.step parse tm s (.tick (s.deadline - s.now).toNat) = some { s with now := s.deadline } := by
              simp only [VersionWait.step, hp, hcn, Option.getD_none, hnow]
              rw [if_pos (by omega)]
            refine ⟨[.tick (s.deadline - s.now).toNat, .expire],
              { s with now := s.deadline, pc := .returned (.error (.sentinel .protocolMissing)) s.deadline }, _, _, ?_, rfl, rfl⟩
            rw [VersionWait.run, hstep]
            simp [VersionWait.run, VersionWait.step, hp]

/-- C127. The look-ups are the retry time apart, so their number is bounded. -/
theorem C127_paced (parse : Bytes → Option Version) (tm : Times) (t0 : Time) (ls : List VersionWait.Label) (s : VersionWait.State)
    (h : VersionWait.run parse tm (VersionWait.init tm t0) ls = some s) :
    (∀ (post : List (Time × Seen)) (a : Time) x (b : Time) y pre, s.reads = post ++ (b, y) :: (a, x) :: pre → a + tm.retry ≤ b) ∧
    ((s.reads.length : Int) - 1) * tm.retry ≤ tm.timeout + tm.lag := by
  have hi := VersionWait.inv_run (VersionWait.inv_init parse tm t0) h
  refine ⟨hi.apart, ?_⟩
  rcases hi.count with hr | ⟨a, x, rest, hr, hle⟩
  · rw [hr]
    have : ((0 : Int) - 1) * tm.retry = - tm.retry := by ring
    simp only [List.length_nil, Nat.cast_zero, this]
    omega
  · rw [hr]
    have ha : a ≤ t0 + tm.timeout + tm.lag := (hi.first (a, x) (by rw [hr]; exact List.mem_cons_self ..)).2
    simp only [List.length_cons, Nat.cast_add, Nat.cast_one]
    have : ((rest.length : Int) + 1 - 1) * tm.retry = rest.length * tm.retry := by ring
    omega

/-- C127. The answer is that of the last look-up, the first to be conclusive, given at once; otherwise the version is said to
be missing, but only after the time-out or a cancellation. -/
theorem C127_answer (parse : Bytes → Option Version) (tm : Times) (t0 : Time) (ls : List VersionWait.Label) (s : VersionWait.State)
    (h : VersionWait.run parse tm (VersionWait.init tm t0) ls = some s) (r : Except Err Version) (e : Time)
    (hp : s.pc = .returned r e) :
    (∃ x rest, s.reads = (e, x) :: rest ∧ Conclusive x ∧ Verdict parse x r ∧ ∀ a ∈ rest, ¬ Conclusive a.2) ∨
    (r = .error (.sentinel .protocolMissing) ∧ (∀ a ∈ s.reads, ¬ Conclusive a.2) ∧
      (t0 + tm.timeout ≤ e ∨ ∃ c, s.cancelledAt = some c ∧ c ≤ e)) := by
  have hi := VersionWait.inv_run (VersionWait.inv_init parse tm t0) h
  have hw := hi.where_
  rw [hp] at hw
  rcases hw.2.2.2 with h1 | ⟨h1, h2, h3, _⟩
  · exact Or.inl h1
  · exact Or.inr ⟨h1, h2, h3⟩

/-- C127. So the timed loop answers what `C38` says about its look-ups. -/
theorem C127_agrees (parse : Bytes → Option Version) (tm : Times) (t0 : Time) (ls : List VersionWait.Label) (s : VersionWait.State)
    (h : VersionWait.run parse tm (VersionWait.init tm t0) ls = some s) (r : Except Err Version) (e : Time)
    (hp : s.pc = .returned r e) : r = get parse (s.reads.reverse.map Prod.snd) := by
  rcases C127_answer parse tm t0 ls s h r e hp with ⟨x, rest, h1, h2, h3, h4⟩ | ⟨h1, h2, _⟩
  · rw [h1]
    simp only [List.reverse_cons, List.map_append, List.map_cons, List.map_nil]
    obtain ⟨r', hv, hg⟩ := C38_first_conclusive parse (rest.reverse.map Prod.snd) [] x (by
      intro y hy
      obtain ⟨a, ha, rfl⟩ := List.mem_map.1 hy
      exact h4 a (List.mem_reverse.1 ha)) h2
    rw [hg]
    exact C38_verdict_unique parse x r r' h3 hv
  · rw [h1, C38_missing]
    intro y hy
    obtain ⟨a, ha, rfl⟩ := List.mem_map.1 hy
    exact h2 a (List.mem_reverse.1 ha)

/-- C127. A version that is there in time is found: if every look-up from `t` on is conclusive and `t` lies at least the retry
time (and the lag) before the time-out, a call that is not cancelled does not say that the version is missing, but gives the verdict on it. -/
theorem C127_found (parse : Bytes → Option Version) (tm : Times) (t0 : Time) (ls : List VersionWait.Label) (s : VersionWait.State)
    (h : VersionWait.run parse tm (VersionWait.init tm t0) ls = some s) (r : Except Err Version) (e : Time)
    (hp : s.pc = .returned r e) (hc : s.cancelledAt = none) (t : Time) (ht : t + tm.retry + tm.lag ≤ t0 + tm.timeout)
    (hthere : ∀ a x, (a, x) ∈ s.reads → t ≤ a → Conclusive x) :
    ∃ x, (e, x) ∈ s.reads ∧ Conclusive x ∧ Verdict parse x r := by
  have hi := VersionWait.inv_run (VersionWait.inv_init parse tm t0) h
  have hw := hi.where_
  rw [hp] at hw
  rcases hw.2.2.2 with ⟨x, rest, h1, h2, h3, _⟩ | ⟨_, h2, h3, a, x, rest, h4, h5⟩
  · exact ⟨x, by rw [h1]; exact List.mem_cons_self .., h2, h3⟩
  · exfalso
    have he : t0 + tm.timeout ≤ e := by
      rcases h3 with h3 | ⟨c, h3, _⟩
      · exact h3
      · rw [hc] at h3; cases h3
    have hmem : (a, x) ∈ s.reads := by rw [h4]; exact List.mem_cons_self ..
    exact h2 (a, x) hmem (hthere a x hmem (by omega))

/-- C127. With the default options, and a lag below the retry time: the call is over within five seconds and the lag, and the
peer store is looked at most 101 times. -/
theorem C127_default (parse : Bytes → Option Version) (lag : Nat) (hlag : lag < 50000000) (t0 : Time) (ls : List VersionWait.Label)
    (s : VersionWait.State) (h : VersionWait.run parse (.default lag) (VersionWait.init (.default lag) t0) ls = some s) :
    (Running s → s.now ≤ t0 + 5000000000 + lag) ∧ (∀ r e, s.pc = .returned r e → e ≤ t0 + 5000000000 + lag) ∧
    s.reads.length ≤ 101 := by
  obtain ⟨h1, h2⟩ := C127_in_time parse (.default lag) t0 ls s h
  have h3 := (C127_paced parse (.default lag) t0 ls s h).2
  refine ⟨fun hr => (h1 hr).1, fun r e hp => (h2 r e hp).1, ?_⟩
  simp only [Times.default] at h3
  omega

/-! ### Examples -/

namespace VersionWait

def exParse (v : Bytes) : Option Version := if v = [49, 46, 48, 46, 48] then some ⟨1, 0, 0⟩ else none

/-- Nothing is there at first; the version is found at the second look-up. -/
def exFound : List Label := [.look (.missing (.other 0)), .tick 50000001, .timer, .look (.text ownString)]

/-- Nothing is ever there, and the retry time is longer than the time-out. -/
def exMissing : List Label := [.look (.text []), .tick 5000000002, .expire, .tick 7]

def answered (s : State) : Option (Option Version × Time) :=
  match s.pc with
  | .returned (.ok v) e => some (some v, e)
  | .returned (.error _) e => some (none, e)
  | _ => none

example : (run exParse (Times.default 5) (init (Times.default 5) 100) exFound).map answered =
    some (some (some ⟨1, 0, 0⟩, 50000101)) := by decide +kernel

example : (run exParse { Times.default 5 with retry := 6000000000 } (init { Times.default 5 with retry := 6000000000 } 100) exMissing).map answered =
    some (some (none, 5000000102)) := by decide +kernel

/- The hypotheses of `C127_found` with `t = 200`. -/
example : (200 : Int) + (Times.default 5).retry + (Times.default 5).lag ≤ 100 + (Times.default 5).timeout ∧
    (run exParse (Times.default 5) (init (Times.default 5) 100) exFound).map (fun s => (s.reads.map Prod.fst, s.cancelledAt)) =
      some ([50000101, 100], none) := by decide +kernel

/- With the default options the version is looked for at most 101 times (with a lag below the retry time). -/
example (n : Int) (h : (n - 1) * (Times.default 5).retry ≤ (Times.default 5).timeout + (Times.default 5).lag) : n ≤ 101 := by
  simp only [Times.default] at h
  omega

end VersionWait

end KP2P

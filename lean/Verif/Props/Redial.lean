import Verif.Spec.Redial
import Verif.Proof.Fair
import Mathlib.Data.List.Perm.Basic
import Mathlib.Tactic.Tauto
/-!
# C60, C62: redialling of the initial peers
-/

namespace KP2P
open Redial

/-- C60. In a round exactly the initial peers that are not connected are dialled, in order; dial errors do not stop
the round. -/
theorem C60_round (connected : Bytes → Bool) (dial : Bytes → Option Err) (initial : List Bytes) :
    (dialRound connected dial initial).1 = initial.filter (fun p => !connected p) ∧
    (dialRound connected dial initial).2 = (initial.filter (fun p => !connected p)).filterMap dial := by
  induction initial with
  | nil => exact ⟨rfl, rfl⟩
  | cons p rest ih =>
    unfold dialRound
    by_cases h : connected p
    · simp [h, ih.1, ih.2]
    · simp only [h]
      cases hd : dial p with
      | none => simp [hd, ih.1, ih.2, h]
      | some e => simp [hd, ih.1, ih.2, h]

example : (dialRound (fun p => p = [2]) (fun p => if p = [1] then some (.other 0) else none) [[1], [2], [3]]).1 =
    [[1], [3]] := by decide +kernel

namespace Redial

theorem run_append (peers : List Bytes) (s : State) (a b : List Label) :
    run peers s (a ++ b) = (run peers s a).bind fun s' => run peers s' b := by
  induction a generalizing s with
  | nil => rfl
  | cons l a ih =>
    simp only [List.cons_append, run]
    cases step peers s l with
    | none => rfl
    | some s' => exact ih s'

/-- All steps, with what they do. -/
theorem step_cases {peers : List Bytes} {s s' : State} {l : Label} (h : step peers s l = some s') :
    (∃ p rest, l = .answer true ∧ s.pc = .asking (p :: rest) ∧ s.gone = false ∧
      s' = { s with pc := .asking rest, log := .asked p true :: s.log }) ∨
    (∃ p rest, l = .answer false ∧ s.pc = .asking (p :: rest) ∧ s.gone = false ∧
      s' = { s with pc := .dialling p rest, log := .dialled p :: .asked p false :: s.log }) ∨
    (∃ p rest e, l = .dialDone (some e) ∧ s.pc = .dialling p rest ∧
      s' = { s with pc := .asking rest, log := .failed p e :: s.log }) ∨
    (∃ p rest, l = .dialDone none ∧ s.pc = .dialling p rest ∧ s' = { s with pc := .asking rest }) ∨
    (l = .roundEnd ∧ s.pc = .asking [] ∧
      s' = { s with pc := .sleeping (s.now + sleepTime), log := .ended s.now :: s.log }) ∨
    (∃ t order, s.pc = .sleeping t ∧ order.Perm peers ∧
      (l = .sleepOver order ∧ t ≤ s.now ∨ l = .wakeCancelled order ∧ s.cancelled = true) ∧
      s' = { s with pc := .asking order, log := .started s.now :: s.log }) ∨
    (l = .cancel ∧ s' = { s with cancelled := true, log := .cancelled :: s.log }) ∨
    (l = .managerEnds ∧ s.cancelled = true ∧ s' = { s with gone := true }) ∨
    (∃ d, l = .tick d ∧ s' = { s with now := s.now + (d : Nat) }) := by
  cases l with
  | answer c =>
    simp only [step] at h
    split at h
    · rename_i p rest hpc
      split at h
      · cases h
      · rename_i hg
        split at h
        · rename_i hc
          subst hc
          simp only [Option.some.injEq] at h
          exact Or.inl ⟨p, rest, rfl, hpc, by simpa using hg, h.symm⟩
        · rename_i hc
          simp only [Bool.not_eq_true] at hc
          subst hc
          simp only [Option.some.injEq] at h
          exact Or.inr (Or.inl ⟨p, rest, rfl, hpc, by simpa using hg, h.symm⟩)
    · cases h
  | dialDone e =>
    simp only [step] at h
    split at h
    · rename_i p rest hpc
      cases e with
      | some e =>
        simp only [Option.some.injEq] at h
        exact Or.inr (Or.inr (Or.inl ⟨p, rest, e, rfl, hpc, h.symm⟩))
      | none =>
        simp only [Option.some.injEq] at h
        exact Or.inr (Or.inr (Or.inr (Or.inl ⟨p, rest, rfl, hpc, h.symm⟩)))
    · cases h
  | roundEnd =>
    simp only [step] at h
    split at h
    · rename_i hpc
      simp only [Option.some.injEq] at h
      exact Or.inr (Or.inr (Or.inr (Or.inr (Or.inl ⟨rfl, hpc, h.symm⟩))))
    · cases h
  | sleepOver order =>
    simp only [step] at h
    split at h
    · rename_i t hpc
      split at h
      · rename_i hc
        simp only [Option.some.injEq] at h
        exact Or.inr (Or.inr (Or.inr (Or.inr (Or.inr (Or.inl ⟨t, order, hpc, hc.2, Or.inl ⟨rfl, hc.1⟩, h.symm⟩)))))
      · cases h
    · cases h
  | wakeCancelled order =>
    simp only [step] at h
    split at h
    · rename_i t hpc
      split at h
      · rename_i hc
        simp only [Option.some.injEq] at h
        exact Or.inr (Or.inr (Or.inr (Or.inr (Or.inr (Or.inl ⟨t, order, hpc, hc.2, Or.inr ⟨rfl, hc.1⟩, h.symm⟩)))))
      · cases h
    · cases h
  | cancel =>
    simp only [step, Option.some.injEq] at h
    exact Or.inr (Or.inr (Or.inr (Or.inr (Or.inr (Or.inr (Or.inl ⟨rfl, h.symm⟩))))))
  | managerEnds =>
    simp only [step] at h
    split at h
    · rename_i hc
      simp only [Option.some.injEq] at h
      exact Or.inr (Or.inr (Or.inr (Or.inr (Or.inr (Or.inr (Or.inr (Or.inl ⟨rfl, hc, h.symm⟩)))))))
    · cases h
  | tick d =>
    simp only [step, Option.some.injEq] at h
    exact Or.inr (Or.inr (Or.inr (Or.inr (Or.inr (Or.inr (Or.inr (Or.inr ⟨d, rfl, h.symm⟩)))))))

/-- What remains to be done in the round, in the given state. -/
def todo : PC → List Bytes
  | .asking t => t
  | .dialling _ t => t
  | .sleeping _ => []

/-- The peers dialled are those found unconnected. -/
def unconnected (l : List (Bytes × Bool)) : List Bytes := l.filterMap fun x => if x.2 then none else some x.1

/-- A complete round. -/
def Whole (peers : List Bytes) (log : List Obs) : Prop :=
  ((asked (thisRound log)).map Prod.fst).Perm peers ∧ dialled (thisRound log) = unconnected (asked (thisRound log))

structure Inv (peers : List Bytes) (s : State) : Prop where
  round : (((asked (thisRound s.log)).map Prod.fst) ++ todo s.pc).Perm peers
  dials : dialled (thisRound s.log) = unconnected (asked (thisRound s.log))
  past : ∀ l1 t l2, s.log = l1 ++ Obs.ended t :: l2 → Whole peers l2
  wake : ∀ t, s.pc = .sleeping t → ∃ e, lastEnd s.log = some e ∧ t = e + sleepTime
  gaps : ∀ l1 t l2 e, s.log = l1 ++ Obs.started t :: l2 → lastEnd l2 = some e → Obs.cancelled ∉ l2 → e + sleepTime ≤ t
  cancels : s.cancelled = true → Obs.cancelled ∈ s.log

theorem asked_cons (x : Obs) (log : List Obs) :
    asked (x :: log) = asked log ++ (match x with | .asked p c => [(p, c)] | _ => []) := by
  unfold asked
  rw [List.reverse_cons, List.filterMap_append]
  cases x <;> rfl

theorem dialled_cons (x : Obs) (log : List Obs) :
    dialled (x :: log) = dialled log ++ (match x with | .dialled p => [p] | _ => []) := by
  unfold dialled
  rw [List.reverse_cons, List.filterMap_append]
  cases x <;> rfl

theorem unconnected_append (a b : List (Bytes × Bool)) : unconnected (a ++ b) = unconnected a ++ unconnected b := by
  unfold unconnected
  exact List.filterMap_append

theorem inv_init (peers : List Bytes) (now : Time) (order : List Bytes) (h : order.Perm peers) : Inv peers (init now order) := by
  refine ⟨by simpa [init, thisRound, asked, todo] using h, by simp [init, thisRound, dialled, asked, unconnected], ?_, ?_, ?_, ?_⟩
  · intro l1 t l2 hl
    simp only [init] at hl
    cases l1 with
    | nil => cases hl
    | cons _ l1 => injection hl with _ hl; cases l1 <;> cases hl
  · intro t ht; cases ht
  · intro l1 t l2 e hl he
    simp only [init] at hl
    cases l1 with
    | nil => injection hl with _ hl; subst hl; cases he
    | cons _ l1 => injection hl with _ hl; cases l1 <;> cases hl
  · intro h; cases h

/-- An event other than the start or end of a round leaves the past as it is. -/
theorem past_cons {peers : List Bytes} {log : List Obs} {x : Obs} (hx : ∀ t, x ≠ .ended t)
    (h : ∀ l1 t l2, log = l1 ++ Obs.ended t :: l2 → Whole peers l2) :
    ∀ l1 t l2, x :: log = l1 ++ Obs.ended t :: l2 → Whole peers l2 := by
  intro l1 t l2 hl
  cases l1 with
  | nil => injection hl with h1 _; exact absurd h1 (hx t)
  | cons _ l1 => injection hl with _ hl; exact h l1 t l2 hl

theorem gaps_cons {log : List Obs} {x : Obs} (hx : ∀ t, x ≠ .started t)
    (h : ∀ l1 t l2 e, log = l1 ++ Obs.started t :: l2 → lastEnd l2 = some e → Obs.cancelled ∉ l2 → e + sleepTime ≤ t) :
    ∀ l1 t l2 e, x :: log = l1 ++ Obs.started t :: l2 → lastEnd l2 = some e → Obs.cancelled ∉ l2 → e + sleepTime ≤ t := by
  intro l1 t l2 e hl
  cases l1 with
  | nil => injection hl with h1 _; exact absurd h1 (hx t)
  | cons _ l1 => injection hl with _ hl; exact h l1 t l2 e hl

theorem inv_step {peers : List Bytes} {s s' : State} {l : Label} (hi : Inv peers s) (h : step peers s l = some s') :
    Inv peers s' := by
  rcases step_cases h with ⟨p, rest, rfl, hpc, _, rfl⟩ | ⟨p, rest, rfl, hpc, _, rfl⟩ | ⟨p, rest, e, rfl, hpc, rfl⟩ |
    ⟨p, rest, rfl, hpc, rfl⟩ | ⟨rfl, hpc, rfl⟩ | ⟨t, order, hpc, hperm, hwhy, rfl⟩ | ⟨rfl, rfl⟩ | ⟨rfl, hc, rfl⟩ | ⟨d, rfl, rfl⟩
  · refine ⟨?_, ?_, past_cons (by simp) hi.past, (by simp), gaps_cons (by simp) hi.gaps,
      fun h => List.mem_cons_of_mem _ (hi.cancels h)⟩
    · have := hi.round
      rw [hpc] at this
      simpa [thisRound, asked_cons, todo] using this
    · have := hi.dials
      simp [thisRound, asked_cons, dialled_cons, unconnected_append, this]
      rfl
  · refine ⟨?_, ?_, past_cons (by simp) (past_cons (by simp) hi.past), (by simp),
      gaps_cons (by simp) (gaps_cons (by simp) hi.gaps),
      fun h => List.mem_cons_of_mem _ (List.mem_cons_of_mem _ (hi.cancels h))⟩
    · have := hi.round
      rw [hpc] at this
      simpa [thisRound, asked_cons, todo] using this
    · have := hi.dials
      simp [thisRound, asked_cons, dialled_cons, unconnected_append, this]
      rfl
  · refine ⟨?_, ?_, past_cons (by simp) hi.past, (by simp), gaps_cons (by simp) hi.gaps,
      fun h => List.mem_cons_of_mem _ (hi.cancels h)⟩
    · have := hi.round
      rw [hpc] at this
      simpa [thisRound, asked_cons, todo] using this
    · have := hi.dials
      simp [thisRound, asked_cons, dialled_cons, this]
  · refine ⟨?_, hi.dials, hi.past, (by simp), hi.gaps, hi.cancels⟩
    have := hi.round
    rw [hpc] at this
    simpa [todo] using this
  · refine ⟨?_, ?_, ?_, ?_, gaps_cons (by simp) hi.gaps, fun h => List.mem_cons_of_mem _ (hi.cancels h)⟩
    · have := hi.round
      rw [hpc] at this
      simpa [thisRound, asked_cons, todo] using this
    · have := hi.dials
      simp [thisRound, asked_cons, dialled_cons, this]
    · intro l1 t l2 hl
      cases l1 with
      | nil =>
        injection hl with _ hl
        subst hl
        have := hi.round
        rw [hpc] at this
        exact ⟨by simpa [todo] using this, hi.dials⟩
      | cons _ l1 => injection hl with _ hl; exact hi.past l1 t l2 hl
    · intro t ht
      injection ht with ht
      exact ⟨s.now, rfl, ht.symm⟩
  · refine ⟨by simpa [thisRound, asked, todo] using hperm, by simp [thisRound, dialled, asked, unconnected],
      past_cons (by simp) hi.past, (by simp), ?_, fun h => List.mem_cons_of_mem _ (hi.cancels h)⟩
    intro l1 t' l2 e hl he hc
    cases l1 with
    | nil =>
      injection hl with h1 hl
      subst hl
      injection h1 with h1
      obtain ⟨e', he', rfl⟩ := hi.wake t hpc
      rw [he] at he'
      injection he' with he'
      subst he' h1
      rcases hwhy with ⟨_, h2⟩ | ⟨_, h2⟩
      · exact h2
      · exact absurd (hi.cancels h2) hc
    | cons _ l1 => injection hl with _ hl; exact hi.gaps l1 t' l2 e hl he hc
  · refine ⟨?_, ?_, past_cons (by simp) hi.past, ?_, gaps_cons (by simp) hi.gaps, fun _ => List.mem_cons_self⟩
    · simpa [thisRound, asked_cons] using hi.round
    · simpa [thisRound, asked_cons, dialled_cons] using hi.dials
    · intro t ht
      exact hi.wake t ht
  · exact ⟨hi.round, hi.dials, hi.past, hi.wake, hi.gaps, hi.cancels⟩
  · exact ⟨hi.round, hi.dials, hi.past, hi.wake, hi.gaps, hi.cancels⟩

theorem inv_run {peers : List Bytes} {s s' : State} {ls : List Label} (hi : Inv peers s) (h : run peers s ls = some s') :
    Inv peers s' := by
  induction ls generalizing s with
  | nil => simp only [run, Option.some.injEq] at h; exact h ▸ hi
  | cons l ls ih =>
    simp only [run] at h
    cases hst : step peers s l with
    | none => rw [hst] at h; cases h
    | some s1 => rw [hst] at h; exact ih (inv_step hi hst) h

theorem inv_reachable {peers : List Bytes} {s : State} (h : Reachable peers s) : Inv peers s := by
  obtain ⟨now, order, ls, hp, hr⟩ := h
  exact inv_run (inv_init peers now order hp) hr

end Redial

/-- C60. Whatever happens, in every round that has ended each of the initial peers was asked about once, and exactly those
that were not connected were dialled. -/
theorem C60_each_once {peers : List Bytes} {s : Redial.State} (h : Redial.Reachable peers s) (l1 l2 : List Redial.Obs) (t : Time)
    (hl : s.log = l1 ++ Redial.Obs.ended t :: l2) :
    ((asked (thisRound l2)).map Prod.fst).Perm peers ∧
    dialled (thisRound l2) = ((asked (thisRound l2)).filter fun x => !x.2).map Prod.fst := by
  have hw := (Redial.inv_reachable h).past l1 t l2 hl
  refine ⟨hw.1, hw.2.trans ?_⟩
  generalize asked (thisRound l2) = l
  induction l with
  | nil => rfl
  | cons x l ih =>
    obtain ⟨p, c⟩ := x
    cases c <;> simpa [Redial.unconnected] using ih

/-- C60. Until the context ends, a round starts ten seconds or more after the end of the one before. -/
theorem C60_ten_seconds {peers : List Bytes} {s : Redial.State} (h : Redial.Reachable peers s) (l1 l2 : List Redial.Obs)
    (t e : Time) (hl : s.log = l1 ++ Redial.Obs.started t :: l2) (he : lastEnd l2 = some e) (hc : Redial.Obs.cancelled ∉ l2) :
    e + 10000000000 ≤ t := by
  have := (Redial.inv_reachable h).gaps l1 t l2 e hl he hc
  simpa [sleepTime] using this

/-- C60. While the context lives and queries are answered, dialling ends and time goes on, every initial peer is asked about
again and again, so that it is dialled again whenever it is found unconnected. -/
theorem C60_again {peers : List Bytes} {σ : Nat → Redial.State} {ev : Nat → Redial.Label}
    (h0 : Redial.Reachable peers (σ 0)) (hx : Redial.Exec peers σ ev) (hf : Redial.Fair peers σ ev) (ht : Redial.TimePasses σ)
    (halive : ∀ n, (σ n).cancelled = false) (p : Bytes) (hp : p ∈ peers) (n : Nat) :
    ∃ m rest c, n ≤ m ∧ (σ m).pc = .asking (p :: rest) ∧ ev m = .answer c ∧
      (c = false → Redial.Obs.dialled p ∈ (σ (m + 1)).log) := by
  have hreach : ∀ n, Redial.Reachable peers (σ n) := by
    intro n
    induction n with
    | zero => exact h0
    | succ n ih =>
      obtain ⟨now, order, ls, h1, h2⟩ := ih
      refine ⟨now, order, ls ++ [ev n], h1, ?_⟩
      rw [Redial.run_append, h2]
      simp only [Option.bind_some, run, hx n]
  have hgone : ∀ n, (σ n).gone = false := by
    have key : ∀ s ls s', (s.gone = true → s.cancelled = true) → run peers s ls = some s' → s'.gone = true → s'.cancelled = true := by
      intro s ls
      induction ls generalizing s with
      | nil => intro s' h hr; simp only [run, Option.some.injEq] at hr; exact hr ▸ h
      | cons l ls ih =>
        intro s' h hr
        simp only [run] at hr
        cases hst : step peers s l with
        | none => rw [hst] at hr; cases hr
        | some s1 =>
          rw [hst] at hr
          refine ih s1 s' ?_ hr
          rcases Redial.step_cases hst with ⟨_, _, _, _, _, rfl⟩ | ⟨_, _, _, _, _, rfl⟩ | ⟨_, _, _, _, _, rfl⟩ |
            ⟨_, _, _, _, rfl⟩ | ⟨_, _, rfl⟩ | ⟨_, _, _, _, _, rfl⟩ | ⟨_, rfl⟩ | ⟨_, hc, rfl⟩ | ⟨_, _, rfl⟩
          · exact h
          · exact h
          · exact h
          · exact h
          · exact h
          · exact h
          · exact fun _ => rfl
          · exact fun _ => hc
          · exact h
    intro n
    obtain ⟨now, order, ls, _, h2⟩ := hreach n
    cases hg : (σ n).gone with
    | false => rfl
    | true =>
      have := key (init now order) ls (σ n) (by simp [init]) h2 hg
      rw [halive n] at this; cases this
  -- how far the question about `p` is away
  let rank : Redial.State → Nat := fun s =>
    match s.pc with
    | .asking t => if p ∈ t then 2 * t.length else 2 * peers.length + 2 + 2 * t.length
    | .dialling _ t => if p ∈ t then 2 * t.length + 1 else 2 * peers.length + 3 + 2 * t.length
    | .sleeping _ => 2 * peers.length + 1
  by_contra hno
  have hnot : ∀ m, n ≤ m → ∀ rest c, (σ m).pc = .asking (p :: rest) → ev m ≠ .answer c := by
    intro m hm rest c hpc hev
    refine hno ⟨m, rest, c, hm, hpc, hev, ?_⟩
    rintro rfl
    have := hx m
    rw [hev] at this
    rcases Redial.step_cases this with ⟨_, _, h, _⟩ | ⟨_, _, _, h, _, h'⟩ | ⟨_, _, _, h, _⟩ |
            ⟨_, _, h, _⟩ | ⟨h, _⟩ | ⟨_, _, _, _, h, _⟩ | ⟨h, _⟩ | ⟨h, _⟩ | ⟨_, h, _⟩
    · cases h
    · rw [hpc] at h
      injection h with h
      injection h with h _
      subst h
      rw [h']
      exact List.mem_cons_self
    · cases h
    · cases h
    · cases h
    · rcases h with ⟨h, _⟩ | ⟨h, _⟩ <;> cases h
    · cases h
    · cases h
    · cases h
  have hgo := leads_to (σ := fun k => σ (n + k)) (ev := fun k => ev (n + k)) rank (fun _ => True) (fun _ => False)
    (fun _ l => Redial.Work l) ?_ ?_ 0 trivial
  · obtain ⟨_, _, h⟩ := hgo; exact h
  · intro k _ _
    right
    refine ⟨trivial, ?_⟩
    have hst := hx (n + k)
    show rank (σ (n + k + 1)) ≤ rank (σ (n + k)) ∧ (_ → rank (σ (n + k + 1)) < rank (σ (n + k)))
    rcases Redial.step_cases hst with ⟨q, rest, hl, hpc, _, h'⟩ | ⟨q, rest, hl, hpc, _, h'⟩ | ⟨q, rest, e, _, hpc, h'⟩ |
      ⟨q, rest, _, hpc, h'⟩ | ⟨_, hpc, h'⟩ | ⟨t, order, hpc, hperm, _, h'⟩ | ⟨_, h'⟩ | ⟨_, hc, _⟩ | ⟨d, hl, h'⟩
    · have hne : q ≠ p := by rintro rfl; exact hnot (n + k) (by omega) rest true hpc hl
      simp only [rank, h', hpc, List.mem_cons, hne.symm, false_or, List.length_cons]
      split <;> omega
    · have hne : q ≠ p := by rintro rfl; exact hnot (n + k) (by omega) rest false hpc hl
      simp only [rank, h', hpc, List.mem_cons, hne.symm, false_or, List.length_cons]
      split <;> omega
    · simp only [rank, h', hpc]
      split <;> omega
    · simp only [rank, h', hpc]
      split <;> omega
    · simp only [rank, h', hpc, List.not_mem_nil, if_false, List.length_nil]
      omega
    · simp only [rank, h', hpc, hperm.mem_iff.2 hp, if_true, hperm.length_eq]
      omega
    · have := halive (n + k + 1)
      rw [h'] at this; cases this
    · rw [halive (n + k)] at hc; cases hc
    · rw [h', hl]
      exact ⟨Nat.le_refl _, fun h => h.elim⟩
  · intro k _
    by_contra hnw
    have hidle : ∀ m, n + k ≤ m → ¬ Redial.Work (ev m) := by
      intro m hm hw
      refine hnw ⟨m - n, by omega, ?_⟩
      show Redial.Work (ev (n + (m - n)))
      rwa [show n + (m - n) = m by omega]
    have htick : ∀ m, n + k ≤ m → ∃ d : Nat, σ (m + 1) = { σ m with now := (σ m).now + d } := by
      intro m hm
      have hst := hx m
      have hw := hidle m hm
      have ha := halive (m + 1)
      have ha' := halive m
      cases hev : ev m with
      | tick d => rw [hev] at hst; simp only [step, Option.some.injEq] at hst; exact ⟨d, hst.symm⟩
      | cancel => rw [hev] at hst; simp only [step, Option.some.injEq] at hst; rw [← hst] at ha; cases ha
      | managerEnds => rw [hev] at hst; simp only [step, ha', Bool.false_eq_true, if_false] at hst; cases hst
      | answer _ => rw [hev] at hw; exact (hw trivial).elim
      | dialDone _ => rw [hev] at hw; exact (hw trivial).elim
      | roundEnd => rw [hev] at hw; exact (hw trivial).elim
      | sleepOver _ => rw [hev] at hw; exact (hw trivial).elim
      | wakeCancelled _ => rw [hev] at hw; exact (hw trivial).elim
    have hsame : ∀ d, (σ (n + k + d)).pc = (σ (n + k)).pc ∧ (σ (n + k)).now ≤ (σ (n + k + d)).now := by
      intro d
      induction d with
      | zero => exact ⟨rfl, Int.le_refl _⟩
      | succ d ih =>
        obtain ⟨x, hx'⟩ := htick (n + k + d) (by omega)
        show (σ (n + k + d + 1)).pc = _ ∧ _ ≤ (σ (n + k + d + 1)).now
        rw [hx']
        exact ⟨ih.1, by have := ih.2; show _ ≤ (σ (n + k + d)).now + (x : Int); omega⟩
    have hmono : ∀ m, n + k ≤ m → ∀ d, (σ m).now ≤ (σ (m + d)).now := by
      intro m hm d
      induction d with
      | zero => exact Int.le_refl _
      | succ d ih =>
        obtain ⟨x, hx'⟩ := htick (m + d) (by omega)
        show _ ≤ (σ (m + d + 1)).now
        rw [hx']
        show _ ≤ (σ (m + d)).now + (x : Int)
        omega
    -- from some moment on a step of the loop is possible
    obtain ⟨M, hM, hen⟩ : ∃ M, n + k ≤ M ∧ ∀ m, M ≤ m → ∃ x, Redial.Work x ∧ (step peers (σ m) x).isSome = true := by
      cases hpc : (σ (n + k)).pc with
      | asking t =>
        refine ⟨n + k, Nat.le_refl _, fun m hm => ?_⟩
        obtain ⟨d, rfl⟩ := Nat.exists_eq_add_of_le hm
        have h1 := (hsame d).1
        rw [hpc] at h1
        cases t with
        | nil => exact ⟨.roundEnd, trivial, by simp [step, h1]⟩
        | cons q rest => exact ⟨.answer true, trivial, by simp [step, h1, hgone]⟩
      | dialling q t =>
        refine ⟨n + k, Nat.le_refl _, fun m hm => ?_⟩
        obtain ⟨d, rfl⟩ := Nat.exists_eq_add_of_le hm
        have h1 := (hsame d).1
        rw [hpc] at h1
        exact ⟨.dialDone none, trivial, by simp [step, h1]⟩
      | sleeping t =>
        obtain ⟨N, hN⟩ := ht (max t ((σ (n + k)).now + 1))
        have hNn : n + k ≤ N ∨ N ≤ n + k := by omega
        have hkey : ∃ M, n + k ≤ M ∧ t ≤ (σ M).now := by
          rcases hNn with h1 | h1
          · exact ⟨N, h1, by omega⟩
          · exfalso
            -- time does not run backwards
            have hback : ∀ d, (σ N).now ≤ (σ (N + d)).now := by
              intro d
              induction d with
              | zero => exact Int.le_refl _
              | succ d ih =>
                refine Int.le_trans ih ?_
                show _ ≤ (σ (N + d + 1)).now
                rcases Redial.step_cases (hx (N + d)) with ⟨_, _, _, _, _, h'⟩ | ⟨_, _, _, _, _, h'⟩ | ⟨_, _, _, _, _, h'⟩ |
                  ⟨_, _, _, _, h'⟩ | ⟨_, _, h'⟩ | ⟨_, _, _, _, _, h'⟩ | ⟨_, h'⟩ | ⟨_, _, h'⟩ | ⟨d, _, h'⟩
                all_goals (rw [h']; first | exact Int.le_refl _ | (show (σ _).now ≤ (σ _).now + ((_ : Nat) : Int); omega))
            obtain ⟨d, hd⟩ := Nat.exists_eq_add_of_le h1
            have h2 := hback d
            rw [← hd] at h2
            omega
        obtain ⟨M, hM, hMt⟩ := hkey
        refine ⟨M, hM, fun m hm => ?_⟩
        obtain ⟨d, rfl⟩ := Nat.exists_eq_add_of_le hm
        have h2 := hmono M hM d
        obtain ⟨d', hd'⟩ := Nat.exists_eq_add_of_le (Nat.le_trans hM hm)
        have h1 := (hsame d').1
        rw [← hd', hpc] at h1
        refine ⟨.sleepOver peers, trivial, ?_⟩
        simp only [step, h1, List.Perm.refl, and_true]
        rw [if_pos (Int.le_trans hMt h2)]
        rfl
    obtain ⟨m, hm, hw⟩ := hf M hen
    exact hidle m (by omega) hw

/-- C62 refuted: the redial loop does not end with the node. With no initial peers it spins: after cancellation, for
every `n`, there is an execution of `n` further rounds in which no time passes. -/
theorem C62_redial_ends_refuted (n : Nat) (s : Redial.State) (t : Time) (hc : s.cancelled = true) (hs : s.pc = .sleeping t) :
    ∃ ls s' t', run [] s ls = some s' ∧ s'.log.count (.ended s.now) = s.log.count (.ended s.now) + n ∧
      s'.cancelled = true ∧ s'.pc = .sleeping t' ∧ s'.now = s.now := by
  induction n with
  | zero => exact ⟨[], s, t, rfl, rfl, hc, hs, rfl⟩
  | succ n ih =>
    obtain ⟨ls, s', t', h1, h2, h3, h4, h5⟩ := ih
    refine ⟨ls ++ [.wakeCancelled [], .roundEnd], { s' with pc := .sleeping (s'.now + sleepTime), log := .ended s'.now :: .started s'.now :: s'.log }, _, ?_, ?_, h3, rfl, h5⟩
    · rw [Redial.run_append, h1]
      simp [run, step, h4, h3]
    · simp only [h5, List.count_cons_self]
      rw [List.count_cons_of_ne (by simp), h2]
      omega

/-- C62 refuted, with initial peers: once the manager loop is gone the redial loop blocks for ever in its next
query. -/
theorem C62_redial_blocks (peers : List Bytes) (s : Redial.State) (p : Bytes) (rest : List Bytes)
    (hg : s.gone = true) (hs : s.pc = .asking (p :: rest)) (ls : List Redial.Label) (s' : Redial.State)
    (hr : run peers s ls = some s') : s'.pc = .asking (p :: rest) := by
  induction ls generalizing s with
  | nil => simp only [run, Option.some.injEq] at hr; subst hr; exact hs
  | cons l ls ih =>
    simp only [run] at hr
    cases hst : step peers s l with
    | none => rw [hst] at hr; cases hr
    | some s1 =>
      rw [hst] at hr
      refine ih s1 ?_ ?_ hr <;>
      rcases Redial.step_cases hst with ⟨_, _, _, h, h2, rfl⟩ | ⟨_, _, _, h, h2, rfl⟩ | ⟨_, _, _, _, h, rfl⟩ |
        ⟨_, _, _, h, rfl⟩ | ⟨_, h, rfl⟩ | ⟨_, _, h, _, _, rfl⟩ | ⟨_, rfl⟩ | ⟨_, _, rfl⟩ | ⟨_, _, rfl⟩ <;>
      first
        | exact hg
        | exact hs
        | rfl
        | (rw [hg] at h2; cases h2)
        | (rw [hs] at h; cases h)

namespace Redial

/-- Two rounds, the peers in different order; the second peer is connected at first and lost later; then the context ends and
the loop hangs in its next question. -/
def exRun : List Label :=
  [.answer false, .dialDone (some (.other 0)), .answer true, .roundEnd, .tick 10000000000, .sleepOver [[2], [1]], .answer false,
   .tick 5, .dialDone none, .answer true, .roundEnd, .cancel, .managerEnds, .wakeCancelled [[1], [2]]]

def exEnd : State := (run [[1], [2]] (init 0 [[1], [2]]) exRun).getD (init 0 [])

example : Reachable [[1], [2]] exEnd ∧ exEnd.gone = true ∧ exEnd.pc = .asking [[1], [2]] ∧
    exEnd.log = [.started 10000000005, .cancelled] ++ .ended 10000000005 :: [.asked [1] true, .dialled [2], .asked [2] false,
      .started 10000000000, .ended 0, .asked [2] true, .failed [1] (.other 0), .dialled [1], .asked [1] false, .started 0] :=
  ⟨⟨0, [[1], [2]], exRun, .refl _, by decide +kernel⟩, by decide +kernel⟩

/-- A round every ten seconds, for ever: the only initial peer is never connected. -/
def exEv (n : Nat) : Label :=
  match n % 5 with
  | 0 => .answer false
  | 1 => .dialDone (some (.other 0))
  | 2 => .roundEnd
  | 3 => .tick 10000000000
  | _ => .sleepOver [[1]]

def exσ : Nat → State
  | 0 => init 0 [[1]]
  | n + 1 => (step [[1]] (exσ n) (exEv n)).getD (exσ n)

theorem ex_state (k : Nat) : ∀ r < 5, step [[1]] (exσ (5 * k + r)) (exEv (5 * k + r)) = some (exσ (5 * k + r + 1)) ∧
    (exσ (5 * k + r)).cancelled = false ∧ (exσ (5 * k + r)).now = (if r = 4 then (k + 1) * 10000000000 else k * 10000000000) := by
  have one : ∀ j, (exσ (5 * j)).pc = .asking [[1]] → (exσ (5 * j)).gone = false → (exσ (5 * j)).cancelled = false →
      (exσ (5 * j)).now = j * 10000000000 →
      (∀ r < 5, step [[1]] (exσ (5 * j + r)) (exEv (5 * j + r)) = some (exσ (5 * j + r + 1)) ∧
        (exσ (5 * j + r)).cancelled = false ∧
        (exσ (5 * j + r)).now = (if r = 4 then (j + 1) * 10000000000 else j * 10000000000)) ∧
      (exσ (5 * j + 5)).pc = .asking [[1]] ∧ (exσ (5 * j + 5)).gone = false ∧ (exσ (5 * j + 5)).cancelled = false ∧
      (exσ (5 * j + 5)).now = (j + 1) * 10000000000 := by
    intro j hp hg hc hn
    have e0 : exEv (5 * j) = .answer false := by simp [exEv]
    have e1 : exEv (5 * j + 1) = .dialDone (some (.other 0)) := by simp [exEv, Nat.add_mod]
    have e2 : exEv (5 * j + 2) = .roundEnd := by simp [exEv, Nat.add_mod]
    have e3 : exEv (5 * j + 3) = .tick 10000000000 := by simp [exEv, Nat.add_mod]
    have e4 : exEv (5 * j + 4) = .sleepOver [[1]] := by simp [exEv, Nat.add_mod]
    have s1 : step [[1]] (exσ (5 * j)) (exEv (5 * j)) = some { exσ (5 * j) with pc := .dialling [1] [], log := .dialled [1] :: .asked [1] false :: (exσ (5 * j)).log } := by
      simp [e0, step, hp, hg]
    have d1 : exσ (5 * j + 1) = { exσ (5 * j) with pc := .dialling [1] [], log := .dialled [1] :: .asked [1] false :: (exσ (5 * j)).log } := by
      rw [exσ, s1]; rfl
    have s2 : step [[1]] (exσ (5 * j + 1)) (exEv (5 * j + 1)) = some { exσ (5 * j + 1) with pc := .asking [], log := .failed [1] (.other 0) :: (exσ (5 * j + 1)).log } := by
      simp [e1, step, d1]
    have d2 : exσ (5 * j + 2) = { exσ (5 * j + 1) with pc := .asking [], log := .failed [1] (.other 0) :: (exσ (5 * j + 1)).log } := by
      rw [exσ, s2]; rfl
    have s3 : step [[1]] (exσ (5 * j + 2)) (exEv (5 * j + 2)) = some { exσ (5 * j + 2) with pc := .sleeping ((exσ (5 * j + 2)).now + sleepTime), log := .ended (exσ (5 * j + 2)).now :: (exσ (5 * j + 2)).log } := by
      simp [e2, step, d2]
    have d3 : exσ (5 * j + 3) = { exσ (5 * j + 2) with pc := .sleeping ((exσ (5 * j + 2)).now + sleepTime), log := .ended (exσ (5 * j + 2)).now :: (exσ (5 * j + 2)).log } := by
      rw [exσ, s3]; rfl
    have s4 : step [[1]] (exσ (5 * j + 3)) (exEv (5 * j + 3)) = some { exσ (5 * j + 3) with now := (exσ (5 * j + 3)).now + (10000000000 : Nat) } := by
      simp [e3, step]
    have d4 : exσ (5 * j + 4) = { exσ (5 * j + 3) with now := (exσ (5 * j + 3)).now + (10000000000 : Nat) } := by
      rw [exσ, s4]; rfl
    have s5 : step [[1]] (exσ (5 * j + 4)) (exEv (5 * j + 4)) = some { exσ (5 * j + 4) with pc := .asking [[1]], log := .started (exσ (5 * j + 4)).now :: (exσ (5 * j + 4)).log } := by
      simp [e4, step, d4, d3, sleepTime]
    have d5 : exσ (5 * j + 5) = { exσ (5 * j + 4) with pc := .asking [[1]], log := .started (exσ (5 * j + 4)).now :: (exσ (5 * j + 4)).log } := by
      rw [exσ, s5]; rfl
    refine ⟨?_, by rw [d5], ?_, ?_, ?_⟩
    · intro r hr
      obtain rfl | rfl | rfl | rfl | rfl : r = 0 ∨ r = 1 ∨ r = 2 ∨ r = 3 ∨ r = 4 := by omega
      · exact ⟨by rw [Nat.add_zero, s1, d1], hc, by simp [hn]⟩
      · exact ⟨by rw [s2, d2], by rw [d1]; exact hc, by rw [d1]; simp [hn]⟩
      · exact ⟨by rw [s3, d3], by rw [d2, d1]; exact hc, by rw [d2, d1]; simp [hn]⟩
      · exact ⟨by rw [s4, d4], by rw [d3, d2, d1]; exact hc, by rw [d3, d2, d1]; simp [hn]⟩
      · exact ⟨by rw [s5, d5], by rw [d4, d3, d2, d1]; exact hc, by rw [d4, d3, d2, d1]; simp [hn]; omega⟩
    · rw [d5, d4, d3, d2, d1]; exact hg
    · rw [d5, d4, d3, d2, d1]; exact hc
    · rw [d5, d4, d3, d2, d1]; simp [hn]; omega
  have all : ∀ j, (exσ (5 * j)).pc = .asking [[1]] ∧ (exσ (5 * j)).gone = false ∧ (exσ (5 * j)).cancelled = false ∧
      (exσ (5 * j)).now = j * 10000000000 := by
    intro j
    induction j with
    | zero => exact ⟨rfl, rfl, rfl, rfl⟩
    | succ j ih =>
      have := (one j ih.1 ih.2.1 ih.2.2.1 ih.2.2.2).2
      rw [show 5 * (j + 1) = 5 * j + 5 by omega]
      simpa using this
  obtain ⟨h1, h2, h3, h4⟩ := all k
  exact (one k h1 h2 h3 h4).1

example : Reachable [[1]] (exσ 0) ∧ Exec [[1]] exσ exEv ∧ Fair [[1]] exσ exEv ∧ TimePasses exσ ∧
    (∀ n, (exσ n).cancelled = false) := by
  have hdiv : ∀ n, 5 * (n / 5) + n % 5 = n := fun n => Nat.div_add_mod n 5
  refine ⟨⟨0, [[1]], [], .refl _, rfl⟩, fun n => ?_, fun n _ => ⟨5 * n, by omega, ?_⟩, fun T => ⟨5 * T.toNat, ?_⟩, fun n => ?_⟩
  · have := (ex_state (n / 5) (n % 5) (Nat.mod_lt _ (by omega))).1
    rwa [hdiv] at this
  · simp [exEv, Work]
  · have := (ex_state T.toNat 0 (by omega)).2.2
    simp only [Nat.add_zero] at this
    rw [this]
    simp
    omega
  · have := (ex_state (n / 5) (n % 5) (Nat.mod_lt _ (by omega))).2.1
    rwa [hdiv] at this

end Redial

end KP2P

import Verif.Proof.Fair
import Verif.Props.GossipRun
import Verif.Spec.GossipEnd
/-!
# C110: nothing of gossip runs on after it is switched off
-/

namespace KP2P
open KP2P.GossipRun KP2P.Spec.GossipEnd

/-- How far a reader whose listener has returned is from its end. -/
private def readerRank : Reader → Nat
  | .waiting => 2
  | .holding => 1
  | _ => 0

/-- What a step does to generation `i`. -/
private structure Moves (i : Nat) (l : Label) (crashed : Bool) (g g' : Gen) : Prop where
  cancelled : g.cancelled = true → g'.cancelled = true
  returned : g.pc = .returned → g'.pc = .returned
  launched : g.pc ≠ .spawned → g'.pc ≠ .spawned
  launch : l = .launch i → g'.pc ≠ .spawned
  leave : l = .leave i → g'.pc = .returned
  quiet : g.pc ≠ .spawned → g.reader = .none ∨ g.reader = .returned → g'.reader = .none ∨ g'.reader = .returned
  less : g.pc = .returned → crashed = true ∨ (readerRank g'.reader ≤ readerRank g.reader ∧
    (OfReader i l → readerRank g'.reader < readerRank g.reader))

private theorem moves_refl (i : Nat) (l : Label) (c : Bool) (g : Gen) (h1 : l ≠ .launch i) (h2 : l ≠ .leave i)
    (h3 : ¬ OfReader i l) : Moves i l c g g :=
  ⟨id, id, id, fun h => absurd h h1, fun h => absurd h h2, fun _ h => h, fun _ => Or.inr ⟨Nat.le_refl _, fun h => absurd h h3⟩⟩

private theorem moves {cap : Cap} {s s' : State} {l : Label} (h : step cap s l = some s') {i : Nat} {g : Gen}
    (hg : s.gens[i]? = some g) : ∃ g', s'.gens[i]? = some g' ∧ Moves i l s'.crashed g g' := by
  have hlt : i < s.gens.length := (List.getElem?_eq_some_iff.1 hg).1
  have other : ∀ (j : Nat) (x : Gen), j ≠ i → (s.gens.set j x)[i]? = some g := by
    intro j x hj; rw [List.getElem?_set_ne hj]; exact hg
  have self : ∀ (x : Gen), (s.gens.set i x)[i]? = some x := by
    intro x; rw [List.getElem?_set_self hlt]
  obtain ⟨_, he⟩ := step_eff h
  cases he with
  | start => exact ⟨g, by simp [List.getElem?_append_left hlt, hg], moves_refl _ _ _ _ (by simp) (by simp) (fun h => h)⟩
  | launchIdle j x hx hp he =>
    by_cases hj : j = i
    · subst hj
      rw [hg] at hx; cases hx
      refine ⟨_, self _, ?_⟩
      constructor <;> simp_all [OfReader, readerRank]
    · exact ⟨g, other j _ hj, moves_refl _ _ _ _ (by simp [hj]) (by simp) (fun h => h)⟩
  | launch j x hx hp he =>
    by_cases hj : j = i
    · subst hj
      rw [hg] at hx; cases hx
      refine ⟨_, self _, ?_⟩
      constructor <;> simp_all [OfReader, readerRank]
    · exact ⟨g, other j _ hj, moves_refl _ _ _ _ (by simp [hj]) (by simp) (fun h => h)⟩
  | stop j x hx he =>
    by_cases hj : j = i
    · subst hj
      rw [hg] at hx; cases hx
      refine ⟨_, self _, ?_⟩
      constructor <;> simp [OfReader]
    · exact ⟨g, other j _ hj, moves_refl _ _ _ _ (by simp) (by simp) (fun h => h)⟩
  | stopIdle he => exact ⟨g, hg, moves_refl _ _ _ _ (by simp) (by simp) (fun h => h)⟩
  | cancel j x hx he =>
    by_cases hj : j = i
    · subst hj
      rw [hg] at hx; cases hx
      refine ⟨_, self _, ?_⟩
      constructor <;> simp [OfReader]
    · exact ⟨g, other j _ hj, moves_refl _ _ _ _ (by simp) (by simp) (fun h => h)⟩
  | cancelIdle he => exact ⟨g, hg, moves_refl _ _ _ _ (by simp) (by simp) (fun h => h)⟩
  | cancelGen j x hx =>
    by_cases hj : j = i
    · subst hj
      rw [hg] at hx; cases hx
      refine ⟨_, self _, ?_⟩
      constructor <;> simp [OfReader]
    · exact ⟨g, other j _ hj, moves_refl _ _ _ _ (by simp) (by simp) (fun h => h)⟩
  | over =>
    refine ⟨_, by rw [List.getElem?_map, hg]; rfl, ?_⟩
    constructor <;> simp [OfReader]
  | publish x he => exact ⟨g, hg, moves_refl _ _ _ _ (by simp) (by simp) (fun h => h)⟩
  | publishIdle x he => exact ⟨g, hg, moves_refl _ _ _ _ (by simp) (by simp) (fun h => h)⟩
  | message j x hx hp =>
    by_cases hj : j = i
    · subst hj
      rw [hg] at hx; cases hx
      refine ⟨_, self _, ?_⟩
      constructor <;> simp [OfReader, readerRank, hp]
    · exact ⟨g, other j _ hj, moves_refl _ _ _ _ (by simp) (by simp) (fun h => hj h)⟩
  | failed j x hx hp hd =>
    by_cases hj : j = i
    · subst hj
      rw [hg] at hx; cases hx
      refine ⟨_, self _, ?_⟩
      constructor <;> simp [OfReader, readerRank, hp]
    · exact ⟨g, other j _ hj, moves_refl _ _ _ _ (by simp) (by simp) (fun h => hj h)⟩
  | crash j x hx hp hr =>
    exact ⟨g, hg, ⟨id, id, id, by simp, by simp, fun _ h => h, fun _ => Or.inl rfl⟩⟩
  | send j x hx hp hr =>
    by_cases hj : j = i
    · subst hj
      rw [hg] at hx; cases hx
      refine ⟨_, self _, ?_⟩
      constructor <;> simp [OfReader, readerRank, hp, hr]
    · exact ⟨g, other j _ hj, moves_refl _ _ _ _ (by simp) (by simp) (fun h => hj h)⟩
  | quit j x hx hp hd =>
    by_cases hj : j = i
    · subst hj
      rw [hg] at hx; cases hx
      refine ⟨_, self _, ?_⟩
      constructor <;> simp [OfReader, readerRank, hp]
    · exact ⟨g, other j _ hj, moves_refl _ _ _ _ (by simp) (by simp) (fun h => hj h)⟩
  | receive j x hx hp hd =>
    by_cases hj : j = i
    · subst hj
      rw [hg] at hx; cases hx
      refine ⟨_, self _, ?_⟩
      constructor <;> simp [OfReader]
    · exact ⟨g, other j _ hj, moves_refl _ _ _ _ (by simp) (by simp) (fun h => h)⟩
  | leave j x hx hp hd =>
    by_cases hj : j = i
    · subst hj
      rw [hg] at hx; cases hx
      refine ⟨_, self _, ?_⟩
      constructor <;> simp [OfReader, hp]
    · exact ⟨g, other j _ hj, moves_refl _ _ _ _ (by simp) (by simp [hj]) (fun h => h)⟩

/-- Generation `i` is there and satisfies `P`. -/
private def Has (i : Nat) (P : Gen → Prop) (s : State) : Prop := ∃ g, s.gens[i]? = some g ∧ P g

private theorem crashed_stays {cap : Cap} {σ : Nat → State} {ev : Nat → Label} (h : Exec cap σ ev) {n : Nat}
    (hc : (σ n).crashed = true) (d : Nat) : (σ (n + d)).crashed = true := by
  induction d with
  | zero => exact hc
  | succ d ih =>
    rcases h (n + d) with ⟨_, he⟩ | hs
    · show (σ (n + d + 1)).crashed = true
      rw [he]; exact ih
    · rw [(step_eff hs).1] at ih; cases ih

/-- C110. A generation whose context is cancelled comes to its end: both its goroutines return, or the process crashes (see
C53) — in every infinite execution in which they get their turn. -/
theorem C110_ends_partial {cap : Cap} {σ : Nat → State} {ev : Nat → Label} (h : Exec cap σ ev) {i : Nat}
    (hf : FairGen cap σ ev i) {n : Nat} {g : Gen} (hg : (σ n).gens[i]? = some g) (hc : g.cancelled = true) :
    ∃ m, n ≤ m ∧ ((σ m).crashed = true ∨ ∃ g', (σ m).gens[i]? = some g' ∧ Gone g') := by
  obtain ⟨f1, f2, f3⟩ := hf
  have notCr : ∀ {k : Nat}, ¬ (σ k).crashed = true → step cap (σ k) (ev k) = some (σ (k + 1)) := by
    intro k hk
    rcases h k with ⟨hx, _⟩ | hs
    · exact absurd hx hk
    · exact hs
  -- it is launched
  obtain ⟨n1, hn1, h1⟩ := leads_to (σ := σ) (ev := ev) (fun _ => 0) (Has i fun g => g.cancelled = true)
    (fun s => s.crashed = true ∨ Has i (fun g => g.cancelled = true ∧ g.pc ≠ .spawned) s) (fun _ l => l = .launch i)
    (fun k hk hq => by
      obtain ⟨x, hx, hxc⟩ := hk
      obtain ⟨x', hx', hm⟩ := moves (notCr fun e => hq (Or.inl e)) hx
      by_cases hsp : x'.pc = .spawned
      · exact Or.inr ⟨⟨x', hx', hm.cancelled hxc⟩, Nat.le_refl _, fun e => absurd hsp (hm.launch e)⟩
      · exact Or.inl (Or.inr ⟨x', hx', hm.cancelled hxc, hsp⟩))
    (fun k hall => by
      refine f1 k fun m hm => ⟨_, rfl, ?_⟩
      obtain ⟨⟨x, hx, hxc⟩, hq⟩ := hall m hm
      have hcr : (σ m).crashed = false := by
        cases hc : (σ m).crashed with
        | false => rfl
        | true => exact absurd (Or.inl hc) hq
      have hsp : x.pc = .spawned := by
        by_contra hne
        exact hq (Or.inr ⟨x, hx, hxc, hne⟩)
      simp only [step, hcr, hx, hsp]
      simp only [Bool.false_eq_true, if_false, if_true]
      split <;> rfl) n ⟨g, hg, hc⟩
  rcases h1 with h1 | h1
  · exact ⟨n1, hn1, Or.inl h1⟩
  -- the listener leaves
  obtain ⟨n2, hn2, h2⟩ := leads_to (σ := σ) (ev := ev) (fun _ => 0)
    (Has i fun g => g.cancelled = true ∧ g.pc ≠ .spawned)
    (fun s => s.crashed = true ∨ Has i (fun g => g.cancelled = true ∧ g.pc = .returned) s) (fun _ l => l = .leave i)
    (fun k hk hq => by
      obtain ⟨x, hx, hxc, hxp⟩ := hk
      obtain ⟨x', hx', hm⟩ := moves (notCr fun e => hq (Or.inl e)) hx
      by_cases hl : ev k = .leave i
      · exact Or.inl (Or.inr ⟨x', hx', hm.cancelled hxc, hm.leave hl⟩)
      · exact Or.inr ⟨⟨x', hx', hm.cancelled hxc, hm.launched hxp⟩, Nat.le_refl _, fun e => absurd e hl⟩)
    (fun k hall => by
      refine f2 k fun m hm => ⟨_, rfl, ?_⟩
      obtain ⟨⟨x, hx, hxc, hxp⟩, hq⟩ := hall m hm
      have hcr : (σ m).crashed = false := by
        cases hc : (σ m).crashed with
        | false => rfl
        | true => exact absurd (Or.inl hc) hq
      have hsp : x.pc = .listening := by
        cases hp : x.pc with
        | spawned => exact absurd hp hxp
        | listening => rfl
        | returned => exact absurd (Or.inr ⟨x, hx, hxc, hp⟩) hq
      simp [step, hcr, hx, hsp, hxc]) n1 h1
  rcases h2 with h2 | h2
  · exact ⟨n2, by omega, Or.inl h2⟩
  -- the reader ends
  obtain ⟨n3, hn3, h3⟩ := leads_to (σ := σ) (ev := ev)
    (fun s => match s.gens[i]? with | some g => readerRank g.reader | none => 0)
    (Has i fun g => g.cancelled = true ∧ g.pc = .returned)
    (fun s => s.crashed = true ∨ ∃ g', s.gens[i]? = some g' ∧ Gone g') (fun _ l => OfReader i l)
    (fun k hk hq => by
      obtain ⟨x, hx, hxc, hxp⟩ := hk
      obtain ⟨x', hx', hm⟩ := moves (notCr fun e => hq (Or.inl e)) hx
      rcases hm.less hxp with hcr | hless
      · exact Or.inl (Or.inl hcr)
      · refine Or.inr ⟨⟨x', hx', hm.cancelled hxc, hm.returned hxp⟩, ?_⟩
        rw [hx, hx']
        exact hless)
    (fun k hall => by
      refine f3 k fun m hm => ?_
      obtain ⟨⟨x, hx, hxc, hxp⟩, hq⟩ := hall m hm
      have hcr : (σ m).crashed = false := by
        cases hc : (σ m).crashed with
        | false => rfl
        | true => exact absurd (Or.inl hc) hq
      cases hr : x.reader with
      | none => exact absurd (Or.inr ⟨x, hx, hxp, Or.inl hr⟩) hq
      | returned => exact absurd (Or.inr ⟨x, hx, hxp, Or.inr hr⟩) hq
      | waiting => exact ⟨.failed i, rfl, by simp [step, hcr, hx, hr, Gen.done, hxc]⟩
      | holding => exact ⟨.quit i, rfl, by simp [step, hcr, hx, hr, Gen.done, hxc]⟩) n2 h2
  exact ⟨n3, by omega, h3⟩

/-- What has ended does not start again. -/
private theorem gone_stays {cap : Cap} {σ : Nat → State} {ev : Nat → Label} (h : Exec cap σ ev) {n i : Nat}
    (hg : (σ n).crashed = true ∨ ∃ g, (σ n).gens[i]? = some g ∧ Gone g) (d : Nat) :
    (σ (n + d)).crashed = true ∨ ∃ g, (σ (n + d)).gens[i]? = some g ∧ Gone g := by
  rcases hg with hg | hg
  · exact Or.inl (crashed_stays h hg d)
  induction d with
  | zero => exact Or.inr hg
  | succ d ih =>
    rcases ih with ih | ⟨g, hg, hp, hr⟩
    · exact Or.inl (crashed_stays h ih 1)
    · rcases h (n + d) with ⟨_, he⟩ | hs
      · right
        show ∃ g, (σ (n + d + 1)).gens[i]? = some g ∧ Gone g
        rw [he]; exact ⟨g, hg, hp, hr⟩
      · obtain ⟨g', hg', hm⟩ := moves hs hg
        exact Or.inr ⟨g', hg', hm.returned hp, hm.quiet (by rw [hp]; simp) hr⟩

/-- Every generation is cancelled, but for the one that was started last, if it was not stopped. -/
private def Covered (on : Bool) (s : State) : Prop :=
  (on = false → s.cancelOf = none) ∧ (on = true → ∃ k, s.cancelOf = some k ∧ k < s.gens.length) ∧
  ∀ (i : Nat) g, s.gens[i]? = some g → g.cancelled = true ∨ s.cancelOf = some i

private theorem covered_run {cap : Cap} : ∀ (ls : List Label) (on : Bool) (s s' : State), Alternate on ls → Covered on s →
    run cap s ls = some s' → ∃ on', Covered on' s' ∧ ((∀ l ∈ ls, l ≠ .start ∧ l ≠ .cancel) → on' = on) := by
  intro ls
  induction ls with
  | nil => intro on s s' _ hc hr; cases hr; exact ⟨on, hc, fun _ => rfl⟩
  | cons l ls ih =>
    intro on s s' ha hc hr
    simp only [run] at hr
    split at hr
    · rename_i t ht
      obtain ⟨h1, h2, h3⟩ := hc
      -- steps that touch neither `cancelOf` nor cancellations
      have quiet : (l ≠ .start) → (l ≠ .cancel) → Covered on t ∧ Alternate on ls := by
        intro e1 e2
        refine ⟨?_, ?_⟩
        · have keep : t.cancelOf = s.cancelOf ∧ t.gens.length = s.gens.length ∧
              ∀ (i : Nat) g, t.gens[i]? = some g → ∃ g0, s.gens[i]? = some g0 ∧ (g0.cancelled = true → g.cancelled = true) := by
            have put : ∀ (j : Nat) (x x' : Gen), s.gens[j]? = some x → (x.cancelled = true → x'.cancelled = true) →
                ∀ (i : Nat) g, (s.gens.set j x')[i]? = some g →
                  ∃ g0, s.gens[i]? = some g0 ∧ (g0.cancelled = true → g.cancelled = true) := by
              intro j x x' hx hxx i g hi
              by_cases hj : j = i
              · subst hj
                rw [List.getElem?_set_self (List.getElem?_eq_some_iff.1 hx).1] at hi
                cases hi
                exact ⟨x, hx, hxx⟩
              · rw [List.getElem?_set_ne hj] at hi
                exact ⟨g, hi, id⟩
            obtain ⟨_, he⟩ := step_eff ht
            cases he with
            | start => exact absurd rfl e1
            | cancel j x hx he => exact absurd rfl e2
            | cancelIdle he => exact absurd rfl e2
            | cancelGen j x hx => exact ⟨rfl, by simp [State.put], put j x _ hx fun _ => rfl⟩
            | over =>
              refine ⟨rfl, by simp, fun i g h => ?_⟩
              dsimp only at h
              rw [List.getElem?_map, Option.map_eq_some_iff] at h
              obtain ⟨x, hx, rfl⟩ := h
              exact ⟨x, hx, fun _ => rfl⟩
            | stopIdle he => exact ⟨rfl, rfl, fun i g h => ⟨g, h, id⟩⟩
            | publish x he => exact ⟨rfl, rfl, fun i g h => ⟨g, h, id⟩⟩
            | publishIdle x he => exact ⟨rfl, rfl, fun i g h => ⟨g, h, id⟩⟩
            | crash j x hx hp hr => exact ⟨rfl, rfl, fun i g h => ⟨g, h, id⟩⟩
            | launchIdle j x hx hp he => exact ⟨rfl, by simp [State.put], put j x _ hx id⟩
            | launch j x hx hp he => exact ⟨rfl, by simp [State.put], put j x _ hx id⟩
            | stop j x hx he => exact ⟨rfl, by simp [State.put], put j x _ hx id⟩
            | message j x hx hp => exact ⟨rfl, by simp [State.put], put j x _ hx id⟩
            | failed j x hx hp hd => exact ⟨rfl, by simp [State.put], put j x _ hx id⟩
            | send j x hx hp hr => exact ⟨rfl, by simp [State.put], put j x _ hx id⟩
            | quit j x hx hp hd => exact ⟨rfl, by simp [State.put], put j x _ hx id⟩
            | receive j x hx hp hd => exact ⟨rfl, by simp [State.put], put j x _ hx id⟩
            | leave j x hx hp hd => exact ⟨rfl, by simp [State.put], put j x _ hx id⟩
          obtain ⟨k1, k2, k3⟩ := keep
          refine ⟨fun h => k1.trans (h1 h), fun h => ?_, fun i g hg => ?_⟩
          · obtain ⟨k, a, b⟩ := h2 h
            exact ⟨k, k1.trans a, by omega⟩
          · obtain ⟨g0, a, b⟩ := k3 i g hg
            rw [k1]; exact (h3 i g0 a).imp b id
        · cases l <;> first | exact ha | exact absurd rfl e1 | exact absurd rfl e2
      by_cases e1 : l = .start
      · subst e1
        obtain ⟨hon, ha'⟩ := ha
        have hts := (step_eff ht).2
        have hcov : Covered true t := by
          cases hts
          refine ⟨fun h => (by cases h), fun _ => ⟨s.gens.length, rfl, by simp⟩, fun i g hi => ?_⟩
          by_cases hlt : i < s.gens.length
          · have hi' : s.gens[i]? = some g := by rwa [List.getElem?_append_left hlt] at hi
            rcases h3 i g hi' with h | h
            · exact Or.inl h
            · rw [h1 hon] at h; cases h
          · right
            have := (List.getElem?_eq_some_iff.1 hi).1
            simp at this
            show some s.gens.length = some i
            rw [show i = s.gens.length by omega]
        obtain ⟨on', a, _⟩ := ih true t s' ha' hcov hr
        exact ⟨on', a, fun hno => absurd rfl (hno _ (List.mem_cons_self ..)).1⟩
      · by_cases e2 : l = .cancel
        · subst e2
          have hts := (step_eff ht).2
          have hcov : Covered false t := by
            cases hts with
            | cancel j x hx he =>
              refine ⟨fun _ => rfl, fun h => (by cases h), fun i g hi => ?_⟩
              left
              by_cases hj : j = i
              · subst hj
                simp only [State.put] at hi
                rw [List.getElem?_set_self (List.getElem?_eq_some_iff.1 hx).1] at hi
                cases hi; rfl
              · simp only [State.put] at hi
                rw [List.getElem?_set_ne hj] at hi
                rcases h3 i g hi with h | h
                · exact h
                · rw [he] at h; cases h; exact absurd rfl hj
            | cancelIdle he =>
              refine ⟨fun _ => he, fun h => (by cases h), h3⟩
          obtain ⟨on', a, _⟩ := ih false t s' ha hcov hr
          exact ⟨on', a, fun hno => absurd rfl (hno _ (List.mem_cons_self ..)).2⟩
        · obtain ⟨a, b⟩ := quiet e1 e2
          obtain ⟨on', c, d⟩ := ih on t s' b a hr
          exact ⟨on', c, fun hno => d fun l hl => hno l (List.mem_cons_of_mem _ hl)⟩
    · cases hr

/-- C110. If starts and stops alternate (as those of the gossip toggle do, C33), then after a stop the contexts of all
generations are cancelled. -/
theorem C110_all_cancelled_partial (cap : Cap) (ls after : List Label) (s : State)
    (ha : Alternate false (ls ++ .cancel :: after)) (hno : ∀ l ∈ after, l ≠ .start)
    (hr : run cap GossipRun.init (ls ++ .cancel :: after) = some s) :
    ∀ (i : Nat) g, s.gens[i]? = some g → g.cancelled = true := by
  have h0 : Covered false GossipRun.init := ⟨fun _ => rfl, fun h => (by cases h), by intro i g h; simp [GossipRun.init] at h⟩
  have altSplit : ∀ (xs ys : List Label) (on : Bool), Alternate on (xs ++ ys) → ∃ on', Alternate on' ys ∧ Alternate on xs := by
    intro xs ys
    induction xs with
    | nil => intro on h; exact ⟨on, h, trivial⟩
    | cons x xs ih =>
      intro on h
      cases x
      case start => obtain ⟨on', a, b⟩ := ih true h.2; exact ⟨on', a, h.1, b⟩
      case cancel => obtain ⟨on', a, b⟩ := ih false h; exact ⟨on', a, b⟩
      all_goals (obtain ⟨on', a, b⟩ := ih on h; exact ⟨on', a, b⟩)
  obtain ⟨on1, ha1, ha0⟩ := altSplit ls _ _ ha
  rw [run_append] at hr
  cases hrun : run cap GossipRun.init ls with
  | none => rw [hrun] at hr; cases hr
  | some t =>
    rw [hrun] at hr
    obtain ⟨on2, hcov, _⟩ := covered_run ls false _ t ha0 h0 hrun
    -- whatever `on2` is, the cancellation leads to `false`
    have step1 : ∀ (ls : List Label) (u : State), (∀ l ∈ ls, l ≠ .start) → Covered false u → run cap u ls = some s →
        Covered false s := by
      intro ls
      induction ls with
      | nil => intro u _ hc hr; cases hr; exact hc
      | cons l ls ih =>
        intro u hl hc hr
        simp only [run] at hr
        split at hr
        · rename_i v hv
          refine ih v (fun x hx => hl x (List.mem_cons_of_mem _ hx)) ?_ hr
          by_cases e2 : l = .cancel
          · subst e2
            obtain ⟨_, he⟩ := step_eff hv
            cases he with
            | cancel j x hx he => rw [hc.1 rfl] at he; cases he
            | cancelIdle he => exact hc
          · have hr1 : run cap u [l] = some v := by simp [run, hv]
            have hne := hl l (List.mem_cons_self ..)
            obtain ⟨on', a, b⟩ := covered_run [l] false u v (by cases l <;> trivial) hc hr1
            have := b (by intro x hx; rw [List.mem_singleton.1 hx]; exact ⟨hne, e2⟩)
            exact this ▸ a
        · cases hr
    simp only [Option.bind_some, run] at hr
    split at hr
    · rename_i u hu
      have hcu : Covered false u := by
        obtain ⟨h1, h2, h3⟩ := hcov
        obtain ⟨_, he⟩ := step_eff hu
        cases he with
        | cancel j x hx he =>
          refine ⟨fun _ => rfl, fun h => (by cases h), fun i g hi => ?_⟩
          left
          by_cases hj : j = i
          · subst hj
            simp only [State.put] at hi
            rw [List.getElem?_set_self (List.getElem?_eq_some_iff.1 hx).1] at hi
            cases hi; rfl
          · simp only [State.put] at hi
            rw [List.getElem?_set_ne hj] at hi
            rcases h3 i g hi with h | h
            · exact h
            · rw [he] at h; cases h; exact absurd rfl hj
        | cancelIdle he => exact ⟨fun _ => he, fun h => (by cases h), h3⟩
      intro i g hg
      have := step1 after u hno hcu hr
      rcases this.2.2 i g hg with h | h
      · exact h
      · rw [this.1 rfl] at h; cases h
    · cases hr

private theorem length_stays {cap : Cap} {σ : Nat → State} {ev : Nat → Label} (h : Exec cap σ ev) {n : Nat}
    (hno : ∀ k, n ≤ k → ev k ≠ .start) (d : Nat) : (σ (n + d)).gens.length = (σ n).gens.length := by
  induction d with
  | zero => rfl
  | succ d ih =>
    rw [← ih]
    rcases h (n + d) with ⟨_, he⟩ | hs
    · show (σ (n + d + 1)).gens.length = _
      rw [he]
    · obtain ⟨_, he⟩ := step_eff hs
      have hst := hno (n + d) (by omega)
      show (σ (n + d + 1)).gens.length = _
      generalize σ (n + d + 1) = t at he
      generalize ev (n + d) = l at he hst
      cases he <;> first | exact absurd rfl hst | simp [State.put]

/-- C110. If all contexts are cancelled at some moment and gossip is not started again, in the end nothing is left: all
goroutines of all generations have returned, or the process has crashed (C53). -/
theorem C110_nothing_left_partial {cap : Cap} {σ : Nat → State} {ev : Nat → Label} (h : Exec cap σ ev)
    (hf : ∀ i, FairGen cap σ ev i) {n : Nat} (hno : ∀ k, n ≤ k → ev k ≠ .start)
    (hc : ∀ (i : Nat) g, (σ n).gens[i]? = some g → g.cancelled = true) :
    ∃ m, n ≤ m ∧ ((σ m).crashed = true ∨ ∀ (i : Nat) g, (σ m).gens[i]? = some g → Gone g) := by
  have key : ∀ k, k ≤ (σ n).gens.length → ∃ m, n ≤ m ∧ ((σ m).crashed = true ∨ ∀ i, i < k → ∃ g, (σ m).gens[i]? = some g ∧ Gone g) := by
    intro k
    induction k with
    | zero => intro _; exact ⟨n, Nat.le_refl _, Or.inr fun i hi => absurd hi (by omega)⟩
    | succ k ih =>
      intro hk
      obtain ⟨m, hm, hrest⟩ := ih (by omega)
      have hgk : (σ n).gens[k]? = some (σ n).gens[k] := List.getElem?_eq_getElem (by omega)
      obtain ⟨m', hm', hk'⟩ := C110_ends_partial h (hf k) hgk (hc k _ hgk)
      obtain ⟨a, rfl⟩ := Nat.exists_eq_add_of_le hm
      obtain ⟨b, rfl⟩ := Nat.exists_eq_add_of_le hm'
      refine ⟨n + (a + b), by omega, ?_⟩
      have e1 : n + (a + b) = n + a + b := by omega
      have e2 : n + (a + b) = n + b + a := by omega
      rcases hrest with hcr | hrest
      · left; rw [e1]; exact crashed_stays h hcr b
      rcases hk' with hcr | hk'
      · left; rw [e2]; exact crashed_stays h hcr a
      by_cases hcr : (σ (n + (a + b))).crashed = true
      · exact Or.inl hcr
      · refine Or.inr fun i hi => ?_
        rcases Nat.lt_succ_iff_lt_or_eq.1 hi with hlt | rfl
        · have := gone_stays h (Or.inr (hrest i hlt)) b
          rw [← e1] at this
          exact this.resolve_left hcr
        · have := gone_stays h (Or.inr hk') a
          rw [← e2] at this
          exact this.resolve_left hcr
  obtain ⟨m, hm, hx⟩ := key _ (Nat.le_refl _)
  refine ⟨m, hm, hx.imp id fun hall i g hg => ?_⟩
  obtain ⟨d, rfl⟩ := Nat.exists_eq_add_of_le hm
  have hi : i < (σ n).gens.length := by
    have := (List.getElem?_eq_some_iff.1 hg).1
    rwa [length_stays h hno] at this
  obtain ⟨g', hg', hG⟩ := hall i hi
  rw [hg] at hg'; cases hg'; exact hG

/-- The claim without the assumption that starts and stops alternate: after a stop every goroutine can come to its end,
without a further call or the end of the node's own context. -/
def StopsAll (cap : Cap) : Prop := ∀ ls s, run cap GossipRun.init (ls ++ [.stop, .cancel]) = some s →
  ∀ i, i < s.gens.length → ∃ after t, (∀ l ∈ after, l ≠ .start ∧ l ≠ .over ∧ ∀ j, l ≠ .cancelGen j) ∧ run cap s after = some t ∧ ∃ g, t.gens[i]? = some g ∧ Gone g

/-- C110 refuted without that assumption: `StartGossip` called twice forgets the first context; `StopGossip` never cancels it,
and the listener of the first call stays for ever. -/
theorem C110_second_start_refuted (cap : Cap) : ¬ StopsAll cap := by
  intro h
  obtain ⟨after, t, hno, hr, g, hg, hG⟩ := h [.start, .launch 0, .start]
    ⟨[⟨.listening, .waiting, 0, false, true⟩, ⟨.spawned, .none, 0, true, false⟩], false, none, none, [], false, false⟩ rfl 0 (by simp)
  have := run_inv (cap := cap) (fun s => s.cancelOf = none ∧ ∃ g, s.gens[0]? = some g ∧ g.cancelled = false ∧ g.pc = .listening)
    (fun l => l ≠ .start ∧ l ≠ .over ∧ ∀ j, l ≠ .cancelGen j) ?_ after _ t ⟨rfl, _, rfl, rfl, rfl⟩ hno hr
  · obtain ⟨_, g', h1, _, h2⟩ := this
    rw [hg] at h1; cases h1
    rw [hG.1] at h2; cases h2
  · rintro s l s' ⟨h1, g, h2, h3, h4⟩ hl hs
    obtain ⟨_, he⟩ := step_eff hs
    have hlt : 0 < s.gens.length := (List.getElem?_eq_some_iff.1 h2).1
    have put : ∀ (j : Nat) (x x' : Gen), s.gens[j]? = some x → (j = 0 → x'.cancelled = false ∧ x'.pc = .listening) →
        ∃ g, (s.gens.set j x')[0]? = some g ∧ g.cancelled = false ∧ g.pc = .listening := by
      intro j x x' hx hxx
      by_cases hj : j = 0
      · subst hj
        exact ⟨x', by rw [List.getElem?_set_self hlt], hxx rfl⟩
      · exact ⟨g, by rw [List.getElem?_set_ne hj]; exact h2, h3, h4⟩
    have same : ∀ (j : Nat) (x : Gen), s.gens[j]? = some x → j = 0 → x = g := by
      intro j x hx hj; subst hj; rw [h2] at hx; cases hx; rfl
    cases he with
    | start => exact absurd rfl hl.1
    | over => exact absurd rfl hl.2.1
    | cancelGen j x hx => exact absurd rfl (hl.2.2 j)
    | cancel j x hx he => rw [h1] at he; cases he
    | cancelIdle he => exact ⟨h1, g, h2, h3, h4⟩
    | stopIdle he => exact ⟨h1, g, h2, h3, h4⟩
    | publish x he => exact ⟨h1, g, h2, h3, h4⟩
    | publishIdle x he => exact ⟨h1, g, h2, h3, h4⟩
    | crash j x hx hp hr => exact ⟨h1, g, h2, h3, h4⟩
    | launchIdle j x hx hp he =>
      exact ⟨h1, put j x _ hx fun e => by rw [same j x hx e] at hp; rw [hp] at h4; cases h4⟩
    | launch j x hx hp he =>
      exact ⟨h1, put j x _ hx fun e => by rw [same j x hx e] at hp; rw [hp] at h4; cases h4⟩
    | stop j x hx he => exact ⟨h1, put j x _ hx fun e => by rw [same j x hx e]; exact ⟨h3, h4⟩⟩
    | message j x hx hp => exact ⟨h1, put j x _ hx fun e => by rw [same j x hx e]; exact ⟨h3, h4⟩⟩
    | failed j x hx hp hd => exact ⟨h1, put j x _ hx fun e => by rw [same j x hx e]; exact ⟨h3, h4⟩⟩
    | send j x hx hp hr => exact ⟨h1, put j x _ hx fun e => by rw [same j x hx e]; exact ⟨h3, h4⟩⟩
    | quit j x hx hp hd => exact ⟨h1, put j x _ hx fun e => by rw [same j x hx e]; exact ⟨h3, h4⟩⟩
    | receive j x hx hp hd => exact ⟨h1, put j x _ hx fun e => by rw [same j x hx e]; exact ⟨h3, h4⟩⟩
    | leave j x hx hp hd =>
      refine ⟨h1, put j x _ hx fun e => ?_⟩
      rw [same j x hx e, h3] at hd; cases hd

/-! An execution: gossip is started, stopped with a message under way, and never started again. -/

private def gevs : List Label := [.start, .launch 0, .message 0, .stop, .cancel, .quit 0, .leave 0]
private def gev (n : Nat) : Label := (gevs[n]?).getD .stop
private def gst : Nat → State
  | 0 => GossipRun.init
  | n + 1 => (step 8 (gst n) (gev n)).getD GossipRun.init

private def gend : State := ⟨[⟨.returned, .returned, 0, true, true⟩], false, none, none, [], false, false⟩

private theorem gst_end (d : Nat) : gst (7 + d) = gend := by
  induction d with
  | zero => rfl
  | succ d ih =>
    have he : gev (7 + d) = .stop := by simp [gev, gevs]
    have : gst (7 + (d + 1)) = (step 8 (gst (7 + d)) (gev (7 + d))).getD GossipRun.init := rfl
    rw [this, he, ih]; rfl

example : Alternate false gevs := ⟨rfl, trivial⟩

example : Exec 8 gst gev ∧ (∀ i, FairGen 8 gst gev i) ∧ (∀ k, 5 ≤ k → gev k ≠ .start) ∧
    ∀ (i : Nat) g, (gst 5).gens[i]? = some g → g.cancelled = true := by
  have stuck : ∀ i l, (l = .launch i ∨ l = .leave i ∨ OfReaderItself i l) → (step 8 gend l).isSome = false := by
    intro i l hl
    cases l <;> simp [OfReaderItself] at hl <;> rename_i j <;> cases j <;> simp [step, gend]
  refine ⟨fun n => Or.inr ?_, fun i => ⟨?_, ?_, ?_⟩, ?_, ?_⟩
  · by_cases hn : n < 7
    · match n, hn with
      | 0, _ => rfl
      | 1, _ => rfl
      | 2, _ => rfl
      | 3, _ => rfl
      | 4, _ => rfl
      | 5, _ => rfl
      | 6, _ => rfl
    · obtain ⟨d, rfl⟩ := Nat.exists_eq_add_of_le (Nat.le_of_not_lt hn)
      have he : gev (7 + d) = .stop := by simp [gev, gevs]
      have h1 := gst_end (d + 1)
      rw [gst_end d, he, show 7 + d + 1 = 7 + (d + 1) from rfl, h1]; rfl
  · intro n hall
    obtain ⟨l, hl, he⟩ := hall (7 + n) (by omega)
    rw [gst_end, stuck i l (Or.inl hl)] at he; cases he
  · intro n hall
    obtain ⟨l, hl, he⟩ := hall (7 + n) (by omega)
    rw [gst_end, stuck i l (Or.inr (Or.inl hl))] at he; cases he
  · intro n hall
    obtain ⟨l, hl, he⟩ := hall (7 + n) (by omega)
    rw [gst_end, stuck i l (Or.inr (Or.inr hl))] at he; cases he
  · intro k hk
    match k, hk with
    | 5, _ => simp [gev, gevs]
    | 6, _ => simp [gev, gevs]
    | k + 7, _ => simp [gev, gevs]
  · intro i g hg
    have : gst 5 = ⟨[⟨.listening, .holding, 0, true, true⟩], false, none, none, [], false, false⟩ := rfl
    rw [this] at hg
    cases i with
    | zero => cases hg; rfl
    | succ i => simp at hg

end KP2P

import Verif.Model.GossipRun
import Mathlib.Tactic.IntervalCases
/-!
# C52, C53: switching gossip on and off
-/

namespace KP2P
open KP2P.GossipRun
namespace GossipRun

theorem run_append (cap : Cap) (s : State) (xs ys : List Label) :
    run cap s (xs ++ ys) = (run cap s xs).bind fun t => run cap t ys := by
  induction xs generalizing s with
  | nil => rfl
  | cons x xs ih =>
    simp only [List.cons_append, run]
    cases step cap s x with
    | none => rfl
    | some t => exact ih t

/-- What the steps can change, one constructor per way of ending. -/
inductive Eff (s : State) : Label → State → Prop
  | start : Eff s .start
      { s with gens := s.gens ++ [⟨.spawned, .none, 0, s.over, false⟩], cancelOf := some s.gens.length }
  | launchIdle (i : Nat) (g : Gen) : s.gens[i]? = some g → g.pc = .spawned → s.enabled = true →
      Eff s (.launch i) (s.put i { g with pc := .listening })
  | launch (i : Nat) (g : Gen) : s.gens[i]? = some g → g.pc = .spawned → s.enabled = false →
      Eff s (.launch i) { s.put i { g with pc := .listening, reader := .waiting } with enabled := true, current := some i }
  | stop (i : Nat) (g : Gen) : s.gens[i]? = some g → s.enabled = true →
      Eff s .stop { s.put i { g with stopped := true } with enabled := false, current := none }
  | stopIdle : s.enabled = false → Eff s .stop s
  | cancel (i : Nat) (g : Gen) : s.gens[i]? = some g → s.cancelOf = some i →
      Eff s .cancel { s.put i { g with cancelled := true } with cancelOf := none }
  | cancelIdle : s.cancelOf = none → Eff s .cancel s
  | cancelGen (i : Nat) (g : Gen) : s.gens[i]? = some g → Eff s (.cancelGen i) (s.put i { g with cancelled := true })
  | over : Eff s .over { s with gens := s.gens.map fun g => { g with cancelled := true }, over := true }
  | publish (x : Bytes) : s.enabled = true → Eff s (.publish x) { s with published := s.published ++ [x] }
  | publishIdle (x : Bytes) : s.enabled = false → Eff s (.publish x) s
  | message (i : Nat) (g : Gen) : s.gens[i]? = some g → g.reader = .waiting →
      Eff s (.message i) (s.put i { g with reader := .holding })
  | failed (i : Nat) (g : Gen) : s.gens[i]? = some g → g.reader = .waiting → g.done = true →
      Eff s (.failed i) (s.put i { g with reader := .returned })
  | crash (i : Nat) (g : Gen) : s.gens[i]? = some g → g.reader = .holding → g.pc = .returned →
      Eff s (.send i) { s with crashed := true }
  | send (i : Nat) (g : Gen) : s.gens[i]? = some g → g.reader = .holding → g.pc ≠ .returned →
      Eff s (.send i) (s.put i { g with reader := .waiting, chan := g.chan + 1 })
  | quit (i : Nat) (g : Gen) : s.gens[i]? = some g → g.reader = .holding → g.done = true →
      Eff s (.quit i) (s.put i { g with reader := .returned })
  | receive (i : Nat) (g : Gen) : s.gens[i]? = some g → g.pc = .listening → 0 < g.chan →
      Eff s (.receive i) (s.put i { g with chan := g.chan - 1 })
  | leave (i : Nat) (g : Gen) : s.gens[i]? = some g → g.pc = .listening → g.cancelled = true →
      Eff s (.leave i) (s.put i { g with pc := .returned })

theorem step_eff {cap : Cap} {s s' : State} {l : Label} (h : step cap s l = some s') : s.crashed = false ∧ Eff s l s' := by
  unfold step at h
  by_cases hcr : s.crashed = true
  · rw [if_pos hcr] at h; cases h
  · refine ⟨by simpa using hcr, ?_⟩
    rw [if_neg hcr] at h
    cases l with
    | start => cases h; exact .start
    | launch i =>
      dsimp only at h
      cases hg : s.gens[i]? with
      | none => rw [hg] at h; cases h
      | some g =>
        rw [hg] at h; dsimp only at h
        split at h
        · rename_i hp
          split at h
          · rename_i he; cases h; exact .launchIdle i g hg hp he
          · rename_i he; cases h; exact .launch i g hg hp (by simpa using he)
        · cases h
    | stop =>
      dsimp only at h
      split at h
      · rename_i he
        cases hc : s.current with
        | none => rw [hc] at h; cases h
        | some i =>
          rw [hc] at h; dsimp only at h
          cases hg : s.gens[i]? with
          | none => rw [hg] at h; cases h
          | some g => rw [hg] at h; cases h; exact .stop i g hg he
      · rename_i he; cases h; exact .stopIdle (by simpa using he)
    | cancel =>
      dsimp only at h
      cases hc : s.cancelOf with
      | none => rw [hc] at h; cases h; exact .cancelIdle hc
      | some i =>
        rw [hc] at h; dsimp only at h
        cases hg : s.gens[i]? with
        | none => rw [hg] at h; cases h
        | some g => rw [hg] at h; cases h; exact .cancel i g hg hc
    | cancelGen i =>
      dsimp only at h
      cases hg : s.gens[i]? with
      | none => rw [hg] at h; cases h
      | some g => rw [hg] at h; cases h; exact .cancelGen i g hg
    | over => cases h; exact .over
    | publish x =>
      dsimp only at h
      split at h
      · rename_i he; cases h; exact .publish x he
      · rename_i he; cases h; exact .publishIdle x (by simpa using he)
    | message i =>
      dsimp only at h
      cases hg : s.gens[i]? with
      | none => rw [hg] at h; cases h
      | some g =>
        rw [hg] at h; dsimp only at h
        split at h
        · rename_i hp; cases h; exact .message i g hg hp
        · cases h
    | failed i =>
      dsimp only at h
      cases hg : s.gens[i]? with
      | none => rw [hg] at h; cases h
      | some g =>
        rw [hg] at h; dsimp only at h
        split at h
        · rename_i hp; cases h; exact .failed i g hg hp.1 hp.2
        · cases h
    | send i =>
      dsimp only at h
      cases hg : s.gens[i]? with
      | none => rw [hg] at h; cases h
      | some g =>
        rw [hg] at h; dsimp only at h
        split at h
        · rename_i hp
          split at h
          · rename_i hr; cases h; exact .crash i g hg hp hr
          · rename_i hr
            split at h
            · cases h; exact .send i g hg hp hr
            · cases h
        · cases h
    | quit i =>
      dsimp only at h
      cases hg : s.gens[i]? with
      | none => rw [hg] at h; cases h
      | some g =>
        rw [hg] at h; dsimp only at h
        split at h
        · rename_i hp; cases h; exact .quit i g hg hp.1 hp.2
        · cases h
    | receive i =>
      dsimp only at h
      cases hg : s.gens[i]? with
      | none => rw [hg] at h; cases h
      | some g =>
        rw [hg] at h; dsimp only at h
        split at h
        · rename_i hp; cases h; exact .receive i g hg hp.1 hp.2
        · cases h
    | leave i =>
      dsimp only at h
      cases hg : s.gens[i]? with
      | none => rw [hg] at h; cases h
      | some g =>
        rw [hg] at h; dsimp only at h
        split at h
        · rename_i hp; cases h; exact .leave i g hg hp.1 hp.2
        · cases h

/-- After replacing generation `i` by `g'`, a property that held of all generations holds if it holds of `g'`. -/
theorem forall_put {s : State} {i : Nat} {g' : Gen} {P : Gen → Prop}
    (h : ∀ (j : Nat) g, s.gens[j]? = some g → P g) (hg : P g') : ∀ (j : Nat) g, (s.put i g').gens[j]? = some g → P g := by
  intro j g hj
  unfold State.put at hj
  dsimp only at hj
  rw [List.getElem?_set] at hj
  split at hj
  · split at hj
    · cases hj; exact hg
    · cases hj
  · exact h j g hj

/-- The same for a change of all generations. -/
theorem forall_map {s : State} {f : Gen → Gen} {P : Gen → Prop} (h : ∀ (j : Nat) g, s.gens[j]? = some g → P g)
    (hf : ∀ g, P g → P (f g)) : ∀ (j : Nat) g, (s.gens.map f)[j]? = some g → P g := by
  intro j g hj
  rw [List.getElem?_map, Option.map_eq_some_iff] at hj
  obtain ⟨x, hx, rfl⟩ := hj
  exact hf x (h j x hx)

/-- An invariant carried along a run by the given labels. -/
theorem run_inv {cap : Cap} (P : State → Prop) (L : Label → Prop)
    (hP : ∀ s l s', P s → L l → step cap s l = some s' → P s') :
    ∀ (ls : List Label) (s s' : State), P s → (∀ l ∈ ls, L l) → run cap s ls = some s' → P s' := by
  intro ls
  induction ls with
  | nil => intro s s' h _ hr; cases hr; exact h
  | cons l ls ih =>
    intro s s' h hl hr
    unfold run at hr
    cases hs : step cap s l with
    | none => rw [hs] at hr; cases hr
    | some t =>
      rw [hs] at hr
      exact ih t s' (hP s l t h (hl l (List.mem_cons_self ..)) hs) (fun x hx => hl x (List.mem_cons_of_mem _ hx)) hr

end GossipRun

/-! ### C52: nothing is published while gossip is off -/

/-- The claim for one history: what is published after the last stop, without a start in between, is nothing. -/
def QuietAfterStop (cap : Cap) (before after : List Label) : Prop :=
  ∀ s s', run cap GossipRun.init (before ++ [.stop, .cancel]) = some s → Label.start ∉ after → run cap s after = some s' →
    s'.published = s.published

/-- C52 refuted: start, stop before the start-up goroutine runs, then the goroutine runs: the topic is enabled, and a
message is published although gossip is off. -/
theorem C52_quiet_refuted (cap : Cap) (x : Bytes) : ¬ QuietAfterStop cap [.start] [.launch 0, .publish x] := by
  intro h
  have : [x] = ([] : List Bytes) := h _ _ rfl (by simp) rfl
  cases this

/-- C52 as far as it holds: if every start-up goroutine has run by the time of the stop, nothing is published until the
next start. -/
theorem C52_quiet_partial (cap : Cap) (s t t' : State) (after : List Label)
    (hp : ∀ (i : Nat) g, s.gens[i]? = some g → g.pc ≠ .spawned) (hstop : step cap s .stop = some t)
    (hs : Label.start ∉ after) (hr : run cap t after = some t') :
    t'.published = t.published ∧ t'.enabled = false := by
  have h0 : t.enabled = false ∧ ∀ (i : Nat) g, t.gens[i]? = some g → g.pc ≠ .spawned := by
    obtain ⟨_, he⟩ := step_eff hstop
    cases he with
    | stop i g hg he =>
      exact ⟨rfl, forall_put hp (hp i g hg)⟩
    | stopIdle he => exact ⟨he, hp⟩
  have := run_inv (cap := cap)
    (fun u => u.published = t.published ∧ u.enabled = false ∧ ∀ (i : Nat) g, u.gens[i]? = some g → g.pc ≠ .spawned)
    (fun l => l ≠ .start) ?_ after t t' ⟨rfl, h0⟩ (fun l hl e => hs (e ▸ hl)) hr
  · exact ⟨this.1, this.2.1⟩
  · intro u l u' ⟨h1, h2, h3⟩ hl hstep
    obtain ⟨_, he⟩ := step_eff hstep
    cases he with
    | start => exact absurd rfl hl
    | launchIdle i g hg hp' => exact absurd hp' (h3 i g hg)
    | launch i g hg hp' => exact absurd hp' (h3 i g hg)
    | stop i g hg _ => exact ⟨h1, rfl, forall_put h3 (h3 i g hg)⟩
    | stopIdle => exact ⟨h1, h2, h3⟩
    | cancel i g hg _ => exact ⟨h1, h2, forall_put h3 (h3 i g hg)⟩
    | cancelIdle => exact ⟨h1, h2, h3⟩
    | cancelGen i g hg => exact ⟨h1, h2, forall_put h3 (h3 i g hg)⟩
    | over => exact ⟨h1, h2, forall_map h3 fun _ h => h⟩
    | publish x he => rw [h2] at he; cases he
    | publishIdle => exact ⟨h1, h2, h3⟩
    | message i g hg _ => exact ⟨h1, h2, forall_put h3 (h3 i g hg)⟩
    | failed i g hg _ _ => exact ⟨h1, h2, forall_put h3 (h3 i g hg)⟩
    | crash i g hg _ _ => exact ⟨h1, h2, h3⟩
    | send i g hg _ _ => exact ⟨h1, h2, forall_put h3 (h3 i g hg)⟩
    | quit i g hg _ _ => exact ⟨h1, h2, forall_put h3 (h3 i g hg)⟩
    | receive i g hg _ _ => exact ⟨h1, h2, forall_put h3 (h3 i g hg)⟩
    | leave i g hg _ _ => exact ⟨h1, h2, forall_put h3 (by simp)⟩

/-- C52, the other half: while the topic is enabled every message handed over is published, once, in order. -/
theorem C52_published_partial (cap : Cap) (s s' : State) (x : Bytes) (h : step cap s (.publish x) = some s') :
    s'.published = if s.enabled then s.published ++ [x] else s.published := by
  obtain ⟨_, he⟩ := step_eff h
  cases he with
  | publish _ he => simp [he]
  | publishIdle _ he => simp [he]

/-- C52, before the first start nothing is published. -/
theorem C52_never_started_partial (cap : Cap) (ls : List Label) (hs : Label.start ∉ ls) (s : State)
    (hr : run cap GossipRun.init ls = some s) : s.published = [] := by
  exact (C52_quiet_partial cap GossipRun.init GossipRun.init s ls (by intro i g h; simp [GossipRun.init] at h) rfl hs hr).1

/- A history in which the premises hold: start, launch, publish, stop; the later publish has no effect. -/
example : (run 8 GossipRun.init [.start, .launch 0, .publish [1], .stop, .cancel, .publish [2]]).map State.published =
    some [[1]] := by decide +kernel

/-! ### C53: switching gossip off does not crash the node -/

/-- The claim: the process never panics. -/
def NeverCrashes (cap : Cap) : Prop := ∀ s, GossipRun.Reachable cap s → s.crashed = false

/-- C53 refuted, whatever the capacity of the channel: the reader has a message in hand when gossip is stopped, the
listener leaves first, and the send on the closed channel panics. -/
theorem C53_crash_refuted (cap : Cap) : ¬ NeverCrashes cap := by
  intro h
  have := h _ ⟨[.start, .launch 0, .message 0, .stop, .cancel, .leave 0, .send 0], rfl⟩
  cases this

/-- C53 refuted even without a message in hand at the stop: a reader may still get a buffered message afterwards. -/
theorem C53_late_message_refuted (cap : Cap) :
    ∃ s, run cap GossipRun.init [.start, .launch 0, .stop, .cancel, .leave 0, .message 0, .send 0] = some s ∧
      s.crashed = true := ⟨_, rfl, rfl⟩

/-- A step that ends a context. -/
def Cancels : Label → Prop
  | .cancel => True
  | .cancelGen _ => True
  | .over => True
  | _ => False

/-- C53 as far as it holds: a panic needs gossip to have been stopped. While gossip is only switched on, nothing
crashes. -/
theorem C53_needs_stop_partial (cap : Cap) (ls : List Label) (hl : ∀ l ∈ ls, ¬ Cancels l) (s : State)
    (hr : run cap GossipRun.init ls = some s) : s.crashed = false := by
  have := run_inv (cap := cap)
    (fun u => u.crashed = false ∧ (∀ (i : Nat) g, u.gens[i]? = some g → g.cancelled = false ∧ g.pc ≠ .returned) ∧
      u.over = false)
    (fun l => ¬ Cancels l) ?_ ls GossipRun.init s ⟨rfl, by intro i g h; simp [GossipRun.init] at h, rfl⟩ hl hr
  · exact this.1
  · intro u l u' ⟨h1, h3, h4⟩ hl hstep
    obtain ⟨_, he⟩ := step_eff hstep
    cases he with
    | start =>
      refine ⟨h1, fun i g hi => ?_, h4⟩
      dsimp only at hi
      rw [List.getElem?_append] at hi
      split at hi
      · exact h3 i g hi
      · rw [List.getElem?_singleton] at hi
        split at hi
        · cases hi; exact ⟨h4, by simp⟩
        · cases hi
    | launchIdle i g hg hp' => exact ⟨h1, forall_put h3 ⟨(h3 i g hg).1, by simp⟩, h4⟩
    | launch i g hg hp' => exact ⟨h1, forall_put h3 ⟨(h3 i g hg).1, by simp⟩, h4⟩
    | stop i g hg _ => exact ⟨h1, forall_put h3 (h3 i g hg), h4⟩
    | stopIdle => exact ⟨h1, h3, h4⟩
    | cancel i g hg _ => exact absurd trivial hl
    | cancelIdle => exact ⟨h1, h3, h4⟩
    | cancelGen i g hg => exact absurd trivial hl
    | over => exact absurd trivial hl
    | publish x he => exact ⟨h1, h3, h4⟩
    | publishIdle => exact ⟨h1, h3, h4⟩
    | message i g hg _ => exact ⟨h1, forall_put h3 (h3 i g hg), h4⟩
    | failed i g hg _ _ => exact ⟨h1, forall_put h3 (h3 i g hg), h4⟩
    | crash i g hg _ hr => exact absurd hr (h3 i g hg).2
    | send i g hg _ _ => exact ⟨h1, forall_put h3 (h3 i g hg), h4⟩
    | quit i g hg _ _ => exact ⟨h1, forall_put h3 (h3 i g hg), h4⟩
    | receive i g hg _ _ => exact ⟨h1, forall_put h3 (h3 i g hg), h4⟩
    | leave i g hg _ hc => rw [(h3 i g hg).1] at hc; cases hc

/-- No reader of a generation is running when its listener leaves. -/
def Orderly (cap : Cap) (ls : List Label) : Prop :=
  ∀ pre i post s g, ls = pre ++ .leave i :: post → run cap GossipRun.init pre = some s → s.gens[i]? = some g →
    g.reader = .none ∨ g.reader = .returned

/-- C53 as far as it holds: a panic needs a reader that is still running when its listener leaves. If readers end first
there is none. -/
theorem C53_orderly_partial (cap : Cap) (ls : List Label) (ho : Orderly cap ls) (s : State)
    (hr : run cap GossipRun.init ls = some s) : s.crashed = false := by
  -- closed channels have no running reader
  have key : ∀ (ls pre : List Label) (t s : State), run cap GossipRun.init pre = some t → Orderly cap (pre ++ ls) →
      (t.crashed = false ∧ ∀ (i : Nat) g, t.gens[i]? = some g →
        (g.pc = .returned → g.reader = .none ∨ g.reader = .returned)) →
      run cap t ls = some s → s.crashed = false := by
    intro ls
    induction ls with
    | nil => intro pre t s _ _ h hr; cases hr; exact h.1
    | cons l ls ih =>
      intro pre t s hpre ho ⟨h1, h3⟩ hr
      unfold run at hr
      cases hstep : step cap t l with
      | none => rw [hstep] at hr; cases hr
      | some u =>
        rw [hstep] at hr
        refine ih (pre ++ [l]) u s ?_ (by simpa using ho) ?_ hr
        · rw [run_append, hpre]
          show run cap t [l] = some u
          unfold run; rw [hstep]; rfl
        · obtain ⟨_, he⟩ := step_eff hstep
          cases he with
          | start =>
            refine ⟨h1, fun i g hi => ?_⟩
            dsimp only at hi
            rw [List.getElem?_append] at hi
            split at hi
            · exact h3 i g hi
            · rw [List.getElem?_singleton] at hi
              split at hi
              · cases hi; intro h; cases h
              · cases hi
          | launchIdle i g hg hp' => exact ⟨h1, forall_put h3 (by simp)⟩
          | launch i g hg hp' => exact ⟨h1, forall_put h3 (by simp)⟩
          | stop i g hg _ => exact ⟨h1, forall_put h3 (h3 i g hg)⟩
          | stopIdle => exact ⟨h1, h3⟩
          | cancel i g hg _ => exact ⟨h1, forall_put h3 (h3 i g hg)⟩
          | cancelIdle => exact ⟨h1, h3⟩
          | cancelGen i g hg => exact ⟨h1, forall_put h3 (h3 i g hg)⟩
          | over => exact ⟨h1, forall_map h3 fun _ h => h⟩
          | publish x he => exact ⟨h1, h3⟩
          | publishIdle => exact ⟨h1, h3⟩
          | message i g hg hw =>
            refine ⟨h1, forall_put h3 fun hp => ?_⟩
            rcases h3 i g hg hp with h | h <;> rw [hw] at h <;> cases h
          | failed i g hg _ _ => exact ⟨h1, forall_put h3 fun _ => .inr rfl⟩
          | crash i g hg hw hp =>
            rcases h3 i g hg hp with h | h <;> rw [hw] at h <;> cases h
          | send i g hg _ hp => exact ⟨h1, forall_put h3 fun h => absurd h hp⟩
          | quit i g hg _ _ => exact ⟨h1, forall_put h3 fun _ => .inr rfl⟩
          | receive i g hg _ _ => exact ⟨h1, forall_put h3 (h3 i g hg)⟩
          | leave i g hg _ _ =>
            exact ⟨h1, forall_put h3 fun _ => ho pre i ls t g rfl hpre hg⟩
  exact key ls [] GossipRun.init s rfl ho ⟨rfl, by intro i g h; simp [GossipRun.init] at h⟩ hr

/- A history of the orderly kind: the reader ends with the message in hand before the listener leaves. -/
example : Orderly 8 [.start, .launch 0, .message 0, .stop, .cancel, .quit 0, .leave 0] := by
  intro pre i post s g he hr hg
  have hlen : pre.length ≤ 6 := by
    have := congrArg List.length he
    simp at this; omega
  have hpre : pre = [Label.start, .launch 0, .message 0, .stop, .cancel, .quit 0, .leave 0].take pre.length := by
    rw [he]; simp
  have hget : [Label.start, .launch 0, .message 0, .stop, .cancel, .quit 0, .leave 0][pre.length]? = some (.leave i) := by
    rw [he]; simp
  have h6 : pre.length = 6 := by
    rcases Nat.lt_or_ge pre.length 6 with h | h
    · interval_cases pre.length <;> simp at hget
    · omega
  rw [h6] at hpre hget
  simp at hget
  subst hget
  rw [hpre] at hr
  have : s.gens = [⟨.listening, .returned, 0, true, true⟩] := by
    have e : run 8 GossipRun.init [.start, .launch 0, .message 0, .stop, .cancel, .quit 0] = some s := hr
    have e2 : (run 8 GossipRun.init [.start, .launch 0, .message 0, .stop, .cancel, .quit 0]).map State.gens =
      some [⟨.listening, .returned, 0, true, true⟩] := by decide +kernel
    rw [e] at e2; simpa using e2
  rw [this] at hg
  cases hg
  exact .inr rfl

end KP2P

import Verif.Model.StartUp
/-!
# C93, C94: the irreversible height while the node starts
-/

namespace KP2P
open StartUp (Fetch)

private theorem su_ind {P : StartUp.State → Prop} (hs : ∀ s l s', P s → StartUp.step s l = some s' → P s')
    (ls : List StartUp.Label) (s s' : StartUp.State) (h : P s) (hr : StartUp.run s ls = some s') : P s' := by
  induction ls generalizing s with
  | nil => cases hr; exact h
  | cons l ls ih =>
    simp only [StartUp.run] at hr
    split at hr
    · rename_i s1 h1; exact ih s1 (hs s l s1 h h1) hr
    · cases hr

/-! ## C93 -/

/-- The claim: the irreversible height the node works with never goes back. -/
def LibNeverBack : Prop := ∀ s l s', StartUp.Reachable s → StartUp.step s l = some s' →
  ∀ h, s.node = some h → ∃ h', s'.node = some h' ∧ h ≤ h'

/-- C93 refuted: while the reply is under way a newer height is broadcast and taken up; then the reply overwrites it. -/
theorem C93_overwritten_refuted : ¬ LibNeverBack := by
  intro hc
  have hr : StartUp.run (StartUp.init 10) [.fetch, .advance 20, .deliver] =
      some ⟨20, [], .reply 10, some 20, false, false⟩ := by decide +kernel
  obtain ⟨h', h1, h2⟩ := hc _ .store ⟨20, [], .stored, some 10, false, false⟩ ⟨_, _, hr⟩ (by decide +kernel) 20 rfl
  cases h1; omega

/-- C93, how bad it gets: the gap between the node's height and the chain's, with nothing under way any more, has no bound.
The node stays there until the next advance of irreversibility. -/
theorem C93_gap_refuted (n : Nat) : ∃ s, StartUp.Reachable s ∧ s.fetch = .stored ∧ s.inFlight = [] ∧ s.up = true ∧
    ∃ h, s.node = some h ∧ h + n < s.chain := by
  refine ⟨⟨n + 1, [], .stored, some 0, true, false⟩, ⟨0, [.fetch, .advance (n + 1), .deliver, .store, .goUp], ?_⟩, rfl, rfl,
    rfl, 0, rfl, by simp⟩
  simp [StartUp.run, StartUp.step, StartUp.init]

/-- Once `Start` has stored the reply: the heights under way end with the chain's, and if none is under way the node is
up to date. -/
private def Current (s : StartUp.State) : Prop :=
  s.fetch = .stored ∧ (match s.inFlight.getLast? with
    | some h => h = s.chain
    | none => s.node = some s.chain)

private theorem current_step (s : StartUp.State) (l : StartUp.Label) (s' : StartUp.State) (h : Current s)
    (hs : StartUp.step s l = some s') : Current s' := by
  obtain ⟨hf, hl⟩ := h
  cases l with
  | advance x =>
    simp only [StartUp.step] at hs
    split at hs
    · cases hs; exact ⟨hf, by simp⟩
    · cases hs
  | fetch => simp only [StartUp.step, hf] at hs; cases hs
  | store => simp only [StartUp.step, hf] at hs; cases hs
  | goUp =>
    simp only [StartUp.step] at hs
    rw [if_pos hf] at hs
    cases hs; exact ⟨hf, hl⟩
  | deliver =>
    simp only [StartUp.step] at hs
    split at hs
    · rename_i x rest hx
      cases hs
      refine ⟨hf, ?_⟩
      rw [hx] at hl
      cases rest with
      | nil => simp at hl; simp [hl]
      | cons y rest =>
        simp only [List.getLast?_cons_cons, List.getLast?_cons] at hl ⊢
        exact hl
    · cases hs
  | read =>
    simp only [StartUp.step] at hs
    split at hs
    · cases hs; exact ⟨hf, hl⟩
    · cases hs

/-- C93 as far as it holds: the first advance of irreversibility after the start repairs it. From then on, whenever no
broadcast is under way, the node's height is the chain's. -/
theorem C93_settles_partial (s s' : StartUp.State) (pre post : List StartUp.Label) (x : Nat)
    (hf : s.fetch = .stored) (hr : StartUp.run s (pre ++ .advance x :: post) = some s') (hq : s'.inFlight = []) :
    s'.node = some s'.chain := by
  have stored : ∀ s l s', s.fetch = Fetch.stored → StartUp.step s l = some s' → s'.fetch = Fetch.stored := by
    intro s l s' hf hs
    cases l <;> simp only [StartUp.step, hf] at hs <;> (try split at hs) <;> first | (cases hs; done) | skip
    all_goals (cases hs; first | exact hf | rfl)
  have main : ∀ (pre : List StartUp.Label) (s : StartUp.State), s.fetch = .stored →
      StartUp.run s (pre ++ .advance x :: post) = some s' → Current s' := by
    intro pre
    induction pre with
    | nil =>
      intro s hf hr
      simp only [List.nil_append, StartUp.run] at hr
      split at hr
      · rename_i s1 h1
        refine su_ind current_step post s1 s' ?_ hr
        simp only [StartUp.step] at h1
        split at h1
        · cases h1; exact ⟨hf, by simp⟩
        · cases h1
      · cases hr
    | cons l pre ih =>
      intro s hf hr
      simp only [List.cons_append, StartUp.run] at hr
      split at hr
      · rename_i s1 h1; exact ih s1 (stored s l s1 hf h1) hr
      · cases hr
  have := (main pre s hf hr).2
  rw [hq] at this
  exact this

/-- C93 in the good order: if the node stores the reply before it handles any broadcast sent after it, and none sent before
it is still under way, then the node is up to date whenever nothing is under way. -/
theorem C93_in_order_partial (s s1 s' : StartUp.State) (ls : List StartUp.Label) (hc : s.fetch = .reply s.chain)
    (hi : s.inFlight = []) (h1 : StartUp.step s .store = some s1) (hr : StartUp.run s1 ls = some s') (hq : s'.inFlight = []) :
    s'.node = some s'.chain := by
  simp only [StartUp.step, hc] at h1
  cases h1
  have := (su_ind current_step ls _ s' (show Current _ from ⟨rfl, by simp [hi]⟩) hr).2
  rw [hq] at this
  exact this

example : (StartUp.run ⟨10, [], .stored, some 7, true, false⟩ [.read, .advance 20, .deliver]).map
    (fun s => (s.inFlight, s.node, s.chain)) = some ([], some 20, 20) := by decide +kernel

example : (StartUp.run (StartUp.init 10) [.fetch, .store, .advance 20, .advance 30, .deliver, .deliver]).map
    (fun s => (s.inFlight, s.node)) = some ([], some 30) := by decide +kernel

/-! ## C94 -/

/-- C94. The irreversible height is never asked for before it is known: gossip and sessions are started only after the first
value is stored, and it is never unset. -/
theorem C94_known_when_asked (s : StartUp.State) (h : StartUp.Reachable s) :
    s.crashed = false ∧ (s.up = true → ∃ x, s.node = some x) := by
  obtain ⟨x, ls, hr⟩ := h
  have := su_ind (P := fun s => s.crashed = false ∧ (s.fetch = .stored → s.node.isSome = true) ∧
      (s.up = true → s.fetch = .stored)) ?_ ls _ s ⟨rfl, fun h => (by cases h), fun h => (by cases h)⟩ hr
  · exact ⟨this.1, fun hu => Option.isSome_iff_exists.1 (this.2.1 (this.2.2 hu))⟩
  · rintro s l s' ⟨h1, h2, h3⟩ hs
    cases l with
    | advance y =>
      simp only [StartUp.step] at hs
      split at hs
      · cases hs; exact ⟨h1, h2, h3⟩
      · cases hs
    | fetch =>
      simp only [StartUp.step] at hs
      split at hs
      · rename_i hf
        cases hs
        exact ⟨h1, fun h => (by cases h), fun h => (by have := h3 h; rw [hf] at this; cases this)⟩
      · cases hs
    | store =>
      simp only [StartUp.step] at hs
      split at hs
      · cases hs; exact ⟨h1, fun _ => rfl, fun _ => rfl⟩
      · cases hs
    | goUp =>
      simp only [StartUp.step] at hs
      split at hs
      · rename_i hf; cases hs; exact ⟨h1, h2, fun _ => hf⟩
      · cases hs
    | deliver =>
      simp only [StartUp.step] at hs
      split at hs
      · cases hs; exact ⟨h1, fun _ => rfl, h3⟩
      · cases hs
    | read =>
      simp only [StartUp.step] at hs
      split at hs
      · rename_i hu
        cases hs
        refine ⟨?_, h2, h3⟩
        have := h2 (h3 hu)
        obtain ⟨y, hy⟩ := Option.isSome_iff_exists.1 this
        simp only [h1, hy]; rfl
      · cases hs

example : (StartUp.run (StartUp.init 3) [.fetch, .store, .goUp, .read]).map (fun s => (s.crashed, s.up)) =
    some (false, true) := by decide +kernel

end KP2P

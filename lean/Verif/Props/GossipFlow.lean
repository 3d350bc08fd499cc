import Verif.Props.GossipRun
import Verif.Spec.GossipEnd
/-!
# C126: gossip messages pass through
-/

namespace KP2P
open KP2P.GossipRun KP2P.Spec.GossipEnd

namespace GossipRun

/-- Messages in the hand of the reader. -/
def inHand (g : Gen) : Nat := if g.reader = .holding then 1 else 0

/-- A generation before its listener runs has no reader and no messages; a listener returns only when cancelled. -/
def Sound (g : Gen) : Prop := (g.pc = .spawned → g.reader = .none ∧ g.chan = 0) ∧ (g.pc = .returned → g.cancelled = true)

/-- What a step does to the messages of generation `i`. -/
structure Flow (cap : Cap) (i : Nat) (l : Label) (g g' : Gen) : Prop where
  count : g.chan + inHand g + (if l = .message i then 1 else 0) =
    g'.chan + inHand g' + (if l = .receive i then 1 else 0) + (if l = .quit i then 1 else 0)
  bound : g'.chan ≤ max g.chan cap
  holds : g.reader = .holding → g'.done = false → l ≠ .send i → g'.reader = .holding ∧ g'.chan ≤ g.chan
  taken : l = .receive i → g'.chan + 1 = g.chan
  waits : l ≠ .receive i → g.chan ≤ g'.chan
  sound : Sound g'

theorem flow_refl (cap : Cap) (i : Nat) (l : Label) {g : Gen} (hs : Sound g) (h1 : l ≠ .message i) (h2 : l ≠ .receive i)
    (h3 : l ≠ .quit i) : Flow cap i l g g :=
  ⟨by simp [h1, h2, h3], Nat.le_max_left _ _, fun h _ _ => ⟨h, Nat.le_refl _⟩, fun h => absurd h h2,
    fun _ => Nat.le_refl _, hs⟩

theorem send_room {cap : Cap} {s s' : State} {i : Nat} {g : Gen} (h : step cap s (.send i) = some s') (hg : s.gens[i]? = some g)
    (hp : g.pc ≠ .returned) : g.chan < cap := by
  unfold step at h
  split at h
  · cases h
  · simp only [hg, hp, if_false] at h
    split at h
    · split at h
      · assumption
      · cases h
    · cases h

theorem flow {cap : Cap} {s s' : State} {l : Label} (h : step cap s l = some s') {i : Nat} {g : Gen}
    (hg : s.gens[i]? = some g) (hs : Sound g) :
    ∃ g', s'.gens[i]? = some g' ∧ Flow cap i l g g' := by
  have hlt : i < s.gens.length := (List.getElem?_eq_some_iff.1 hg).1
  have other : ∀ (j : Nat) (x : Gen), j ≠ i → (s.gens.set j x)[i]? = some g := by
    intro j x hj; rw [List.getElem?_set_ne hj]; exact hg
  have self : ∀ (x : Gen), (s.gens.set i x)[i]? = some x := by
    intro x; rw [List.getElem?_set_self hlt]
  obtain ⟨_, he⟩ := step_eff h
  cases he with
  | start => exact ⟨g, by simp [List.getElem?_append_left hlt, hg], flow_refl _ _ _ hs (by simp) (by simp) (by simp)⟩
  | launchIdle j x hx hp he =>
    by_cases hj : j = i
    · subst hj
      rw [hg] at hx; cases hx
      have := hs.1 hp
      refine ⟨_, self _, ?_⟩
      constructor <;> simp_all [inHand, Gen.done, Sound]
    · exact ⟨g, other j _ hj, flow_refl _ _ _ hs (by simp) (by simp) (by simp)⟩
  | launch j x hx hp he =>
    by_cases hj : j = i
    · subst hj
      rw [hg] at hx; cases hx
      have := hs.1 hp
      refine ⟨_, self _, ?_⟩
      constructor <;> simp_all [inHand, Gen.done, Sound]
    · exact ⟨g, other j _ hj, flow_refl _ _ _ hs (by simp) (by simp) (by simp)⟩
  | stop j x hx he =>
    by_cases hj : j = i
    · subst hj
      rw [hg] at hx; cases hx
      refine ⟨_, self _, ?_⟩
      constructor <;> simp_all [inHand, Gen.done, Sound]
    · exact ⟨g, other j _ hj, flow_refl _ _ _ hs (by simp) (by simp) (by simp)⟩
  | stopIdle he => exact ⟨g, hg, flow_refl _ _ _ hs (by simp) (by simp) (by simp)⟩
  | cancel j x hx he =>
    by_cases hj : j = i
    · subst hj
      rw [hg] at hx; cases hx
      refine ⟨_, self _, ?_⟩
      constructor <;> simp_all [inHand, Gen.done, Sound]
    · exact ⟨g, other j _ hj, flow_refl _ _ _ hs (by simp) (by simp) (by simp)⟩
  | cancelIdle he => exact ⟨g, hg, flow_refl _ _ _ hs (by simp) (by simp) (by simp)⟩
  | cancelGen j x hx =>
    by_cases hj : j = i
    · subst hj
      rw [hg] at hx; cases hx
      refine ⟨_, self _, ?_⟩
      constructor <;> simp_all [inHand, Gen.done, Sound]
    · exact ⟨g, other j _ hj, flow_refl _ _ _ hs (by simp) (by simp) (by simp)⟩
  | over =>
    refine ⟨_, by rw [List.getElem?_map, hg]; rfl, ?_⟩
    constructor <;> simp_all [inHand, Gen.done, Sound]
  | publish x he => exact ⟨g, hg, flow_refl _ _ _ hs (by simp) (by simp) (by simp)⟩
  | publishIdle x he => exact ⟨g, hg, flow_refl _ _ _ hs (by simp) (by simp) (by simp)⟩
  | message j x hx hp =>
    by_cases hj : j = i
    · subst hj
      rw [hg] at hx; cases hx
      refine ⟨_, self _, ?_⟩
      constructor <;> simp_all [inHand, Gen.done, Sound]
    · exact ⟨g, other j _ hj, flow_refl _ _ _ hs (by simp [hj]) (by simp) (by simp)⟩
  | failed j x hx hp hd =>
    by_cases hj : j = i
    · subst hj
      rw [hg] at hx; cases hx
      refine ⟨_, self _, ?_⟩
      constructor <;> simp_all [inHand, Gen.done, Sound]
    · exact ⟨g, other j _ hj, flow_refl _ _ _ hs (by simp) (by simp) (by simp)⟩
  | crash j x hx hp hr => exact ⟨g, hg, flow_refl _ _ _ hs (by simp) (by simp) (by simp)⟩
  | send j x hx hp hr =>
    by_cases hj : j = i
    · subst hj
      rw [hg] at hx; cases hx
      have := send_room h hg hr
      refine ⟨_, self _, ?_⟩
      constructor <;> simp_all [inHand, Gen.done, Sound]
      omega
    · exact ⟨g, other j _ hj, flow_refl _ _ _ hs (by simp) (by simp) (by simp)⟩
  | quit j x hx hp hd =>
    by_cases hj : j = i
    · subst hj
      rw [hg] at hx; cases hx
      refine ⟨_, self _, ?_⟩
      constructor <;> simp_all [inHand, Gen.done, Sound]
      intro h1
      exact hd.resolve_left (by simp [h1])
    · exact ⟨g, other j _ hj, flow_refl _ _ _ hs (by simp) (by simp) (by simp [hj])⟩
  | receive j x hx hp hd =>
    by_cases hj : j = i
    · subst hj
      rw [hg] at hx; cases hx
      refine ⟨_, self _, ?_⟩
      constructor <;> simp_all [inHand, Gen.done, Sound] <;> omega
    · exact ⟨g, other j _ hj, flow_refl _ _ _ hs (by simp) (by simp [hj]) (by simp)⟩
  | leave j x hx hp hd =>
    by_cases hj : j = i
    · subst hj
      rw [hg] at hx; cases hx
      refine ⟨_, self _, ?_⟩
      constructor <;> simp_all [inHand, Gen.done, Sound]
    · exact ⟨g, other j _ hj, flow_refl _ _ _ hs (by simp) (by simp) (by simp)⟩

/-- A generation that is not there yet has no messages; when it comes it is new. -/
theorem flow_none {cap : Cap} {s s' : State} {l : Label} (h : step cap s l = some s') {i : Nat} (hg : s.gens[i]? = none) :
    (l ≠ .message i ∧ l ≠ .receive i ∧ l ≠ .quit i) ∧
    (s'.gens[i]? = none ∨ ∃ g, s'.gens[i]? = some g ∧ g.chan = 0 ∧ inHand g = 0 ∧ Sound g) := by
  have hlen : s.gens.length ≤ i := List.getElem?_eq_none_iff.1 hg
  have hput : ∀ (j : Nat) (x : Gen), (s.gens.set j x)[i]? = none := by
    intro j x; rw [List.getElem?_eq_none_iff, List.length_set]; exact hlen
  have hne : ∀ (j : Nat) (x : Gen), s.gens[j]? = some x → j ≠ i := by
    rintro j x hx rfl; rw [hg] at hx; cases hx
  obtain ⟨_, he⟩ := step_eff h
  cases he with
  | start =>
    refine ⟨by simp, ?_⟩
    show (s.gens ++ _)[i]? = none ∨ ∃ g, (s.gens ++ _)[i]? = some g ∧ _
    rcases Nat.lt_or_ge s.gens.length i with h1 | h1
    · left; rw [List.getElem?_eq_none_iff, List.length_append]; simp; omega
    · right
      refine ⟨⟨.spawned, .none, 0, s.over, false⟩, ?_, rfl, rfl, ?_⟩
      · rw [show i = s.gens.length by omega]; simp
      · simp [Sound]
  | launchIdle j x hx hp he => exact ⟨by simp, Or.inl (hput _ _)⟩
  | launch j x hx hp he => exact ⟨by simp, Or.inl (hput _ _)⟩
  | stop j x hx he => exact ⟨by simp, Or.inl (hput _ _)⟩
  | stopIdle he => exact ⟨by simp, Or.inl hg⟩
  | cancel j x hx he => exact ⟨by simp, Or.inl (hput _ _)⟩
  | cancelIdle he => exact ⟨by simp, Or.inl hg⟩
  | cancelGen j x hx => exact ⟨by simp, Or.inl (hput _ _)⟩
  | over => exact ⟨by simp, Or.inl (by rw [List.getElem?_map, hg]; rfl)⟩
  | publish x he => exact ⟨by simp, Or.inl hg⟩
  | publishIdle x he => exact ⟨by simp, Or.inl hg⟩
  | message j x hx hp => exact ⟨by simp [hne j x hx], Or.inl (hput _ _)⟩
  | failed j x hx hp hd => exact ⟨by simp, Or.inl (hput _ _)⟩
  | crash j x hx hp hr => exact ⟨by simp, Or.inl hg⟩
  | send j x hx hp hr => exact ⟨by simp, Or.inl (hput _ _)⟩
  | quit j x hx hp hd => exact ⟨by simp [hne j x hx], Or.inl (hput _ _)⟩
  | receive j x hx hp hd => exact ⟨by simp [hne j x hx], Or.inl (hput _ _)⟩
  | leave j x hx hp hd => exact ⟨by simp, Or.inl (hput _ _)⟩

/-- From a generation that is there. -/
theorem flow_run {cap : Cap} {i : Nat} : ∀ (ls : List Label) (s s' : State) (g : Gen), run cap s ls = some s' →
    s.gens[i]? = some g → Sound g → g.chan ≤ cap → ∃ g', s'.gens[i]? = some g' ∧ Sound g' ∧ g'.chan ≤ cap ∧
      g.chan + inHand g + ls.count (.message i) = g'.chan + inHand g' + ls.count (.receive i) + ls.count (.quit i)
  | [], s, s', g, hr, hg, hs, hb => by
    simp only [run, Option.some.injEq] at hr
    subst hr
    exact ⟨g, hg, hs, hb, by simp⟩
  | l :: ls, s, s', g, hr, hg, hs, hb => by
    simp only [run] at hr
    cases hst : step cap s l with
    | none => rw [hst] at hr; cases hr
    | some s1 =>
      rw [hst] at hr
      obtain ⟨g1, hg1, hf⟩ := flow hst hg hs
      have hb1 : g1.chan ≤ cap := by have := hf.bound; rw [Nat.max_eq_right hb] at this; exact this
      obtain ⟨g2, hg2, hs2, hb2, hc⟩ := flow_run ls s1 s' g1 hr hg1 hf.sound hb1
      refine ⟨g2, hg2, hs2, hb2, ?_⟩
      have h1 := hf.count
      simp only [List.count_cons, beq_iff_eq]
      omega

/-- From the beginning. -/
theorem flow_all {cap : Cap} {i : Nat} : ∀ (ls : List Label) (s s' : State), run cap s ls = some s' → s.gens[i]? = none →
    (s'.gens[i]? = none ∧ ls.count (.message i) = 0 ∧ ls.count (.receive i) = 0 ∧ ls.count (.quit i) = 0) ∨
    ∃ g', s'.gens[i]? = some g' ∧ Sound g' ∧ g'.chan ≤ cap ∧
      ls.count (.message i) = g'.chan + inHand g' + ls.count (.receive i) + ls.count (.quit i)
  | [], s, s', hr, hg => by
    simp only [run, Option.some.injEq] at hr
    subst hr
    exact Or.inl ⟨hg, rfl, rfl, rfl⟩
  | l :: ls, s, s', hr, hg => by
    simp only [run] at hr
    cases hst : step cap s l with
    | none => rw [hst] at hr; cases hr
    | some s1 =>
      rw [hst] at hr
      obtain ⟨⟨n1, n2, n3⟩, h1⟩ := flow_none hst hg
      have c1 : ∀ x, l ≠ x → (l :: ls).count x = ls.count x := fun x hx => List.count_cons_of_ne hx
      rw [c1 _ n1, c1 _ n2, c1 _ n3]
      rcases h1 with h1 | ⟨g, h1, h2, h3, h4⟩
      · exact flow_all ls s1 s' hr h1
      · right
        obtain ⟨g', h5, h6, h7, h8⟩ := flow_run ls s1 s' g hr h1 h4 (by omega)
        exact ⟨g', h5, h6, h7, by omega⟩

end GossipRun

/-- C126, nothing is lost or doubled: of the messages a reader was given, each was taken by the listener, or is in the channel,
or in the hand of the reader, or was dropped by the reader because gossip was being switched off; the channel holds no more
than its capacity. -/
theorem C126_accounted {cap : Cap} (ls : List Label) (s : GossipRun.State) (h : run cap init ls = some s) (i : Nat) (g : Gen)
    (hg : s.gens[i]? = some g) :
    ls.count (.message i) = ls.count (.receive i) + g.chan + (if g.reader = .holding then 1 else 0) + ls.count (.quit i) ∧
    g.chan ≤ cap := by
  rcases flow_all (i := i) ls init s h (by simp [init]) with ⟨h1, _⟩ | ⟨g', h1, _, h3, h4⟩
  · rw [hg] at h1; cases h1
  · rw [hg] at h1; cases h1
    refine ⟨?_, h3⟩
    unfold inHand at h4
    omega

/-- The messages are taken out of the hand of the reader, and out of the channel, when that is possible all the time. -/
def GossipRun.FairFlow (cap : Cap) (σ : Nat → GossipRun.State) (ev : Nat → GossipRun.Label) (i : Nat) : Prop :=
  Fair cap σ ev (· = .send i) (· = .send i) ∧ Fair cap σ ev (· = .receive i) (· = .receive i)

/-- Gossip goes on in generation `i` from step `n` on: the process has not crashed and nobody has switched the generation off. -/
def GossipRun.GoesOn (σ : Nat → GossipRun.State) (i n : Nat) : Prop :=
  ∀ m, n ≤ m → (σ m).crashed = false ∧ ∀ g, (σ m).gens[i]? = some g → g.done = false

namespace GossipRun

theorem reach_exec {cap : Cap} {σ : Nat → State} {ev : Nat → Label} (h0 : Reachable cap (σ 0)) (hx : Exec cap σ ev) (n : Nat) :
    Reachable cap (σ n) := by
  induction n with
  | zero => exact h0
  | succ n ih =>
    rcases hx n with ⟨_, h⟩ | h
    · rw [h]; exact ih
    · obtain ⟨ls, hr⟩ := ih
      refine ⟨ls ++ [ev n], ?_⟩
      rw [run_append, hr]
      simp only [Option.bind_some, run, h]

theorem reach_sound {cap : Cap} {s : State} (h : Reachable cap s) {i : Nat} {g : Gen} (hg : s.gens[i]? = some g) :
    Sound g ∧ g.chan ≤ cap := by
  obtain ⟨ls, hr⟩ := h
  rcases flow_all (i := i) ls init s hr (by simp [init]) with ⟨h1, _⟩ | ⟨g', h1, h2, h3, _⟩
  · rw [hg] at h1; cases h1
  · rw [hg] at h1; cases h1; exact ⟨h2, h3⟩

/-- The generation stays there; each step is a step of its messages. -/
theorem follow {cap : Cap} {σ : Nat → State} {ev : Nat → Label} (h0 : Reachable cap (σ 0)) (hx : Exec cap σ ev) {i n : Nat}
    (hon : GoesOn σ i n) {m : Nat} (hm : n ≤ m) {g : Gen} (hg : (σ m).gens[i]? = some g) :
    ∃ g', (σ (m + 1)).gens[i]? = some g' ∧ Flow cap i (ev m) g g' := by
  rcases hx m with ⟨h, _⟩ | h
  · rw [(hon m hm).1] at h; cases h
  · exact flow h hg (reach_sound (reach_exec h0 hx m) hg).1

theorem listening {cap : Cap} {s : State} (h : Reachable cap s) {i : Nat} {g : Gen} (hg : s.gens[i]? = some g)
    (hd : g.done = false) (hb : g.reader = .holding ∨ 0 < g.chan) : g.pc = .listening := by
  obtain ⟨hs, _⟩ := reach_sound h hg
  cases hp : g.pc with
  | listening => rfl
  | spawned =>
    have := hs.1 hp
    rcases hb with hb | hb
    · rw [this.1] at hb; cases hb
    · omega
  | returned =>
    have := hs.2 hp
    simp [Gen.done, this] at hd

end GossipRun

/-- C126, the listener: while gossip goes on, a message in the channel is taken. -/
theorem C126_taken {cap : Cap} {σ : Nat → GossipRun.State} {ev : Nat → GossipRun.Label} (h0 : GossipRun.Reachable cap (σ 0))
    (hx : Exec cap σ ev) {i n : Nat} (hf : FairFlow cap σ ev i) (hon : GoesOn σ i n) {g : Gen} (hg : (σ n).gens[i]? = some g)
    (hc : 0 < g.chan) : ∃ m, n ≤ m ∧ ev m = .receive i := by
  by_contra hno
  have key : ∀ d, ∃ g', (σ (n + d)).gens[i]? = some g' ∧ 0 < g'.chan := by
    intro d
    induction d with
    | zero => exact ⟨g, hg, hc⟩
    | succ d ih =>
      obtain ⟨g', h1, h2⟩ := ih
      obtain ⟨g2, h3, h4⟩ := follow h0 hx hon (Nat.le_add_right n d) h1
      exact ⟨g2, h3, Nat.lt_of_lt_of_le h2 (h4.waits fun h => hno ⟨n + d, Nat.le_add_right _ _, h⟩)⟩
  obtain ⟨m, hm, h⟩ := hf.2 n (fun m hm => by
    obtain ⟨d, rfl⟩ := Nat.exists_eq_add_of_le hm
    obtain ⟨g', h1, h2⟩ := key d
    have h3 := listening (reach_exec h0 hx (n + d)) h1 ((hon _ hm).2 g' h1) (Or.inr h2)
    refine ⟨_, rfl, ?_⟩
    simp [step, (hon _ hm).1, h1, h3, h2])
  exact hno ⟨m, hm, h⟩

/-- C126, the reader never gets stuck: while gossip goes on, a message in its hand is handed on, so that it comes back for the
next one, however fast messages come. -/
theorem C126_handed_on {cap : Cap} (hcap : 0 < cap) {σ : Nat → GossipRun.State} {ev : Nat → GossipRun.Label}
    (h0 : GossipRun.Reachable cap (σ 0)) (hx : Exec cap σ ev) {i n : Nat} (hf : FairFlow cap σ ev i) (hon : GoesOn σ i n)
    {g : Gen} (hg : (σ n).gens[i]? = some g) (hc : g.reader = .holding) :
    ∃ m g', n ≤ m ∧ ev m = .send i ∧ (σ (m + 1)).gens[i]? = some g' ∧ g'.reader = .waiting := by
  by_contra hno
  have hns : ∀ m, n ≤ m → ev m ≠ .send i := by
    intro m hm h
    rcases hx m with ⟨h1, _⟩ | h1
    · rw [(hon m hm).1] at h1; cases h1
    · rw [h] at h1
      obtain ⟨_, he⟩ := step_eff h1
      generalize hs' : σ (m + 1) = s' at he h1
      cases he with
      | crash j x hx hp hr =>
        have := (hon (m + 1) (by omega)).1
        rw [hs'] at this
        cases this
      | send j x hx hp hr =>
        refine hno ⟨m, { x with reader := .waiting, chan := x.chan + 1 }, hm, h, ?_, ?_⟩
        · rw [hs']
          exact List.getElem?_set_self (List.getElem?_eq_some_iff.1 hx).1
        · rfl
  have key : ∀ k, n ≤ k → ∀ g, (σ k).gens[i]? = some g → g.reader = .holding → ∀ d, ∃ g', (σ (k + d)).gens[i]? = some g' ∧
      g'.reader = .holding ∧ g'.chan ≤ g.chan := by
    intro k hk g hg hc d
    induction d with
    | zero => exact ⟨g, hg, hc, Nat.le_refl _⟩
    | succ d ih =>
      obtain ⟨g', h1, h2, h3⟩ := ih
      obtain ⟨g2, h4, h5⟩ := follow h0 hx hon (m := k + d) (by omega) h1
      have h6 := h5.holds h2 ((hon (k + d + 1) (by omega)).2 g2 h4) (hns (k + d) (by omega))
      exact ⟨g2, h4, h6.1, Nat.le_trans h6.2 h3⟩
  -- once there is room the message is sent
  have room : ∀ k, n ≤ k → ∀ g, (σ k).gens[i]? = some g → g.reader = .holding → ¬ g.chan < cap := by
    intro k hk g hg hc hlt
    obtain ⟨m, hm, h⟩ := hf.1 k (fun m hm => by
      obtain ⟨d, rfl⟩ := Nat.exists_eq_add_of_le hm
      obtain ⟨g', h1, h2, h3⟩ := key k hk g hg hc d
      have h4 := listening (reach_exec h0 hx (k + d)) h1 ((hon _ (by omega)).2 g' h1) (Or.inl h2)
      refine ⟨_, rfl, ?_⟩
      simp [step, (hon (k + d) (by omega)).1, h1, h2, h4, show g'.chan < cap by omega])
    exact hns m (by omega) h
  have hfull := room n (Nat.le_refl _) g hg hc
  obtain ⟨m, hm, h⟩ := C126_taken h0 hx hf hon hg (Nat.lt_of_lt_of_le hcap (Nat.le_of_not_lt hfull))
  obtain ⟨d, rfl⟩ := Nat.exists_eq_add_of_le hm
  obtain ⟨g', h1, h2, h3⟩ := key n (Nat.le_refl _) g hg hc d
  obtain ⟨g2, h4, h5⟩ := follow h0 hx hon hm h1
  have h6 := h5.holds h2 ((hon (n + d + 1) (by omega)).2 g2 h4) (hns (n + d) hm)
  have h7 := h5.taken h
  have h8 := (reach_sound (reach_exec h0 hx (n + d)) h1).2
  exact room (n + d + 1) (by omega) g2 h4 h6.1 (by omega)

namespace GossipRun

/-- Gossip is on, messages come faster than the listener takes them until the channel (of two) is full, then one after the
other; gossip is switched off with a message in hand. -/
def exFlow : List Label :=
  [.start, .launch 0, .message 0, .send 0, .message 0, .send 0, .message 0, .receive 0, .send 0, .message 0, .stop, .quit 0]

example : (run 2 init (exFlow.take 7)).map (fun s => (s.gens, (step 2 s (.send 0)).isSome)) =
    some ([⟨.listening, .holding, 2, false, false⟩], false) := by decide +kernel

example : (run 2 init exFlow).map (fun s => s.gens) = some [⟨.listening, .returned, 2, false, true⟩] := by decide +kernel

/-- One message after the other, for ever. -/
def exStart : State := (run 2 init [.start, .launch 0, .message 0]).getD init

def exEvs (n : Nat) : Label := match n % 3 with
  | 0 => .send 0
  | 1 => .receive 0
  | _ => .message 0

def exGens (n : Nat) : Gen := match n % 3 with
  | 0 => ⟨.listening, .holding, 0, false, false⟩
  | 1 => ⟨.listening, .waiting, 1, false, false⟩
  | _ => ⟨.listening, .waiting, 0, false, false⟩

def exSt (n : Nat) : State := { exStart with gens := [exGens n] }

example : Reachable 2 (exSt 0) ∧ Exec 2 exSt exEvs ∧ FairFlow 2 exSt exEvs 0 ∧ GoesOn exSt 0 0 ∧
    (exSt 0).gens[0]? = some (exGens 0) ∧ (exGens 0).reader = .holding ∧ 0 < (exGens 1).chan := by
  have hmod : ∀ n, n % 3 = 0 ∨ n % 3 = 1 ∨ n % 3 = 2 := fun n => by omega
  refine ⟨⟨[.start, .launch 0, .message 0], by decide +kernel⟩, fun n => Or.inr ?_, ⟨fun n _ => ⟨3 * n, by omega, ?_⟩,
    fun n _ => ⟨3 * n + 1, by omega, ?_⟩⟩, fun m _ => ⟨rfl, ?_⟩, rfl, rfl, by decide⟩
  · rcases hmod n with h | h | h
    · have h' : (n + 1) % 3 = 1 := by omega
      simp only [exSt, exGens, exEvs, h, h']
      decide +kernel
    · have h' : (n + 1) % 3 = 2 := by omega
      simp only [exSt, exGens, exEvs, h, h']
      decide +kernel
    · have h' : (n + 1) % 3 = 0 := by omega
      simp only [exSt, exGens, exEvs, h, h']
      decide +kernel
  · simp [exEvs]
  · simp [exEvs, Nat.add_mod]
  · intro g hg
    have : g = exGens m := by simpa [exSt] using hg.symm
    rw [this]
    rcases hmod m with h | h | h <;> simp [exGens, h, Gen.done]

end GossipRun
end KP2P

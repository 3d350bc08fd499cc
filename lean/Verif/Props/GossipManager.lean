import Verif.Model.GossipManager
/-!
# C153: a topic that cannot be joined or subscribed to

Over `Model/GossipManager`: `Join`, `Subscribe`, `RegisterTopicValidator` and `Publish` may fail at any call.
-/

namespace KP2P
namespace GMan

/-- What always holds of a manager whose `Join` came out as `joined`. -/
structure Inv (joined : Bool) (s : State) : Prop where
  alive : s.panicked = false
  topic : s.topic = joined
  on : s.enabled = true → joined = true ∧ ∃ u, s.sub = some u ∧ s.cancel = some u ∧ s.live = [u] ∧ s.readers = [u]
  off : s.enabled = false → s.sub = none ∧ s.live = [] ∧ s.readers = []
  pubs : ∀ p ∈ s.pubs, (∃ x, p = .answered x false) ∨ joined = true
  sent : s.sent ≠ [] → joined = true

theorem Inv.new (j : Bool) : Inv j (GMan.new j) := by
  constructor <;> simp [GMan.new]

theorem Inv.start {j : Bool} {s : State} (h : Inv j s) (ok : Bool) : Inv j (start s ok).1 := by
  unfold GMan.start
  split
  · exact h
  · next he =>
    have he : s.enabled = false := by simpa using he
    split
    · exact h
    · next ht =>
      split
      · exact h
      · have hj : j = true := by rw [← h.topic]; simpa using ht
        obtain ⟨h1, h2, h3⟩ := h.off he
        constructor
        · exact h.alive
        · exact h.topic
        · intro _; exact ⟨hj, s.made, rfl, rfl, by simp [h2], by simp [h3]⟩
        · intro hf; cases hf
        · exact h.pubs
        · exact h.sent

theorem Inv.stop {j : Bool} {s : State} (h : Inv j s) : Inv j (stop s) := by
  unfold GMan.stop
  split
  · exact h
  · next he =>
    have he : s.enabled = true := by simpa using he
    obtain ⟨hj, u, h1, h2, h3, h4⟩ := h.on he
    rw [h1, h2]
    constructor
    · exact h.alive
    · exact h.topic
    · intro hf; cases hf
    · intro _; simp [h3, h4]
    · exact h.pubs
    · exact h.sent

theorem Inv.step {j : Bool} {s s' : State} {l : Label} (h : Inv j s) (hs : step s l = some s') : Inv j s' := by
  unfold GMan.step at hs
  rw [if_neg (by simp [h.alive])] at hs
  cases l with
  | register ok => cases hs; exact ⟨h.alive, h.topic, h.on, h.off, h.pubs, h.sent⟩
  | start ok => cases hs; exact h.start ok
  | stop => cases hs; exact h.stop
  | check x =>
    cases hs
    refine ⟨h.alive, h.topic, h.on, h.off, ?_, h.sent⟩
    intro p hp
    rcases List.mem_append.1 hp with hp | hp
    · exact h.pubs p hp
    · rw [List.mem_singleton] at hp
      subst hp
      cases he : s.enabled with
      | true => exact Or.inr (h.on he).1
      | false => exact Or.inl ⟨x, by simp⟩
  | publish i ok =>
    simp only at hs
    split at hs
    · next x hx =>
      have hj : j = true := by
        rcases h.pubs _ (List.mem_of_getElem? hx) with ⟨y, hy⟩ | hj
        · cases hy
        · exact hj
      split at hs
      · cases hs
        refine ⟨h.alive, h.topic, h.on, h.off, ?_, fun _ => hj⟩
        intro _ _; exact Or.inr hj
      · next ht => exact absurd (h.topic.trans hj) ht
    · cases hs

theorem Inv.run {j : Bool} : ∀ {ls : List Label} {s s' : State}, Inv j s → run s ls = some s' → Inv j s'
  | [], _, _, h, hr => by cases hr; exact h
  | l :: ls, s, s', h, hr => by
    simp only [GMan.run] at hr
    split at hr
    · next hs => exact Inv.run (h.step hs) hr
    · cases hr

theorem Inv.launch {j : Bool} {s : State} (h : Inv j s) (r u : Bool) : Inv j (launch s r u) :=
  Inv.start (s := { s with validator := s.validator || r }) ⟨h.alive, h.topic, h.on, h.off, h.pubs, h.sent⟩ u

theorem start_validator (s : State) (ok : Bool) : (start s ok).1.validator = s.validator := by
  unfold start; split; rfl; split; rfl; split <;> rfl

theorem stop_validator (s : State) : (stop s).validator = s.validator := by
  unfold stop; split; rfl; split <;> rfl

theorem stop_enabled {j : Bool} {s : State} (h : Inv j s) : (stop s).enabled = false := by
  unfold stop
  split
  · next he => simpa using he
  · next he =>
    obtain ⟨_, u, h1, h2, _⟩ := h.on (by simpa using he)
    rw [h1, h2]

theorem start_enabled {s : State} (ht : s.topic = true) : (start s true).1.enabled = true := by
  unfold start
  split
  · next he => exact he
  · simp [ht]

end GMan

open GMan

/-- C153. Whatever fails in joining, subscribing, registering or publishing, and however starting, stopping and publishing
are interleaved: no nil pointer is used. -/
theorem C153_no_panic (joined : Bool) (ls : List GMan.Label) (s : GMan.State) (h : GMan.run (GMan.new joined) ls = some s) :
    s.panicked = false :=
  ((Inv.new joined).run h).alive

/-- C153. A run never gets stuck in the manager: starting, stopping, registering and publishing are possible at any time,
and a call of `PublishMessage` that has begun can be finished. -/
theorem C153_never_stuck (joined : Bool) (ls : List GMan.Label) (s : GMan.State)
    (h : GMan.run (GMan.new joined) ls = some s) :
    (∀ ok, (GMan.step s (.start ok)).isSome) ∧ (GMan.step s .stop).isSome ∧ (∀ ok, (GMan.step s (.register ok)).isSome) ∧
    (∀ x, (GMan.step s (.check x)).isSome) ∧
    ∀ i x, s.pubs[i]? = some (.passed x) → ∀ ok, ∃ s', GMan.step s (.publish i ok) = some s' ∧
      s'.pubs[i]? = some (.answered x true) ∧ s'.sent = if ok then s.sent ++ [x] else s.sent := by
  have hi := (Inv.new joined).run h
  refine ⟨fun _ => by simp [GMan.step, hi.alive], by simp [GMan.step, hi.alive], fun _ => by simp [GMan.step, hi.alive],
    fun _ => by simp [GMan.step, hi.alive], ?_⟩
  intro i x hx ok
  have hj : joined = true := by
    rcases hi.pubs _ (List.mem_of_getElem? hx) with ⟨y, hy⟩ | hj
    · cases hy
    · exact hj
  have ht : s.topic = true := hi.topic.trans hj
  have hlt : i < s.pubs.length := (List.getElem?_eq_some_iff.1 hx).1
  exact ⟨_, by simp [GMan.step, hi.alive, hx, ht]; rfl, by simp [hlt], rfl⟩

/-- C153. Gossip on a topic counts as switched on exactly while the library has a subscription of ours; it is the only one,
and it is the one with a reader. While it is off there is neither. -/
theorem C153_enabled_iff_subscribed (joined : Bool) (ls : List GMan.Label) (s : GMan.State)
    (h : GMan.run (GMan.new joined) ls = some s) :
    (s.enabled = true ↔ ∃ u, s.live = [u]) ∧ (s.enabled = false ↔ s.live = []) ∧ s.readers = s.live := by
  have hi := (Inv.new joined).run h
  cases he : s.enabled with
  | true =>
    obtain ⟨_, u, _, _, h3, h4⟩ := hi.on he
    simp [h3, h4]
  | false =>
    obtain ⟨_, h3, h4⟩ := hi.off he
    simp [h3, h4]

/-- C153. A topic that could not be joined when the node was built is never on, has no subscription, and nothing is sent on
it; every finished call of `PublishMessage` has answered "no", and none is under way. -/
theorem C153_unjoined (ls : List GMan.Label) (s : GMan.State) (h : GMan.run (GMan.new false) ls = some s) :
    s.enabled = false ∧ s.live = [] ∧ s.sent = [] ∧ ∀ p ∈ s.pubs, ∃ x, p = .answered x false := by
  have hi := (Inv.new false).run h
  have he : s.enabled = false := by
    cases he : s.enabled with
    | false => rfl
    | true => exact absurd (hi.on he).1 (by decide)
  refine ⟨he, (hi.off he).2.1, ?_, ?_⟩
  · cases hc : s.sent with
    | nil => rfl
    | cons a l => exact absurd (hi.sent (by simp [hc])) (by decide)
  · intro p hp
    rcases hi.pubs p hp with hx | hx
    · exact hx
    · cases hx

/-- C153. A subscription that failed changes nothing and an error is returned; the next attempt on a topic that was joined
may succeed, and then gossip is on. -/
theorem C153_retry (ls : List GMan.Label) (s : GMan.State) (h : GMan.run (GMan.new true) ls = some s)
    (hoff : s.enabled = false) :
    GMan.start s false = (s, false) ∧ (GMan.start s true).2 = true ∧ (GMan.start s true).1.enabled = true ∧
    (GMan.start s true).1.live = [s.made] := by
  have hi := (Inv.new true).run h
  have ht := hi.topic
  obtain ⟨_, h2, _⟩ := hi.off hoff
  simp [GMan.start, hoff, ht, h2]

/-- C153. `PublishMessage` says "no" at once if gossip is off at the moment of the call, and otherwise goes on to publish. -/
theorem C153_publish_answer (s s' : GMan.State) (x : Bytes) (h : GMan.step s (.check x) = some s') :
    s'.pubs = s.pubs ++ [if s.enabled = true then .passed x else .answered x false] ∧ s'.sent = s.sent := by
  unfold GMan.step at h
  split at h
  · cases h
  · cases h; exact ⟨rfl, rfl⟩

/-- C153 with `joined = true`, a failed subscription, a second attempt, two publications and a stop in between. -/
example : ∃ s, GMan.run (GMan.new true)
    [.register true, .start false, .check [1], .start true, .check [2], .stop, .publish 1 true, .start true] = some s ∧
    s.pubs = [.answered [1] false, .answered [2] true] ∧ s.sent = [[2]] ∧ s.live = [1] ∧ s.enabled = true :=
  ⟨_, rfl, rfl, rfl, rfl, rfl⟩

/-- The same with a topic that was not joined. -/
example : ∃ s, GMan.run (GMan.new false) [.register true, .start true, .check [1], .stop, .start true] = some s ∧
    s.pubs = [.answered [1] false] ∧ s.enabled = false :=
  ⟨_, rfl, rfl, rfl⟩

namespace GMan

theorem toggles_inv {j k : Bool} : ∀ (cs : List (Bool × Outcome)) (b : Both), Inv j b.block → Inv k b.tx →
    Inv j (toggles b cs).block ∧ Inv k (toggles b cs).tx
  | [], _, h1, h2 => ⟨h1, h2⟩
  | (on, o) :: cs, b, h1, h2 => by
    unfold toggles
    cases on with
    | true => exact toggles_inv cs _ (h1.launch _ _) (h2.launch _ _)
    | false => exact toggles_inv cs _ h1.stop h2.stop

/-- What was told last is what is the case. -/
def Agrees (b : Both) : Prop :=
  ∀ on, b.told.getLast? = some on → b.block.enabled = on ∧ b.tx.enabled = on

theorem toggles_agrees : ∀ (cs : List (Bool × Outcome)) (b : Both), Inv true b.block → Inv true b.tx → Agrees b →
    (∀ c ∈ cs, c.1 = true → c.2.blockSub = true ∧ c.2.txSub = true) → Agrees (toggles b cs)
  | [], _, _, _, h, _ => h
  | (on, o) :: cs, b, h1, h2, h, hc => by
    unfold toggles
    have hrest : ∀ c ∈ cs, c.1 = true → c.2.blockSub = true ∧ c.2.txSub = true :=
      fun c hm => hc c (List.mem_cons_of_mem _ hm)
    cases on with
    | true =>
      obtain ⟨g1, g2⟩ := hc _ List.mem_cons_self rfl
      simp only at g1 g2
      refine toggles_agrees cs _ (h1.launch _ _) (h2.launch _ _) ?_ hrest
      intro on ho
      have ho : true = on := by simpa [enableGossip] using ho
      subst ho
      constructor
      · have : (enableGossip b true o).block = launch b.block o.blockReg o.blockSub := rfl
        rw [this, g1]; exact start_enabled h1.topic
      · have : (enableGossip b true o).tx = launch b.tx o.txReg o.txSub := rfl
        rw [this, g2]; exact start_enabled h2.topic
    | false =>
      refine toggles_agrees cs _ h1.stop h2.stop ?_ hrest
      intro on ho
      have ho : false = on := by simpa [enableGossip] using ho
      subst ho
      exact ⟨stop_enabled h1, stop_enabled h2⟩

/-- A topic with a subscription has a validator. -/
def Guarded (s : State) : Prop := s.enabled = true → s.validator = true

theorem launch_validator {s : State} {r u : Bool} (h : s.validator = true ∨ r = true) :
    (launch s r u).validator = true := by
  unfold GMan.launch
  rw [start_validator]
  rcases h with h | h <;> simp [h]

end GMan

/-- C153, partial. If both topics were joined and whenever gossip is switched on both subscriptions succeed, then what
was announced last about gossip is what both topics do. Missing: the failures; see `C153_status_refuted`. -/
theorem C153_status_partial (cs : List (Bool × GMan.Outcome))
    (hok : ∀ c ∈ cs, c.1 = true → c.2.blockSub = true ∧ c.2.txSub = true) (on : Bool)
    (htold : (GMan.toggles (GMan.newBoth true true) cs).told.getLast? = some on) :
    (GMan.toggles (GMan.newBoth true true) cs).block.enabled = on ∧
    (GMan.toggles (GMan.newBoth true true) cs).tx.enabled = on :=
  toggles_agrees cs _ (Inv.new true) (Inv.new true) (by intro on ho; cases ho) hok on htold

/-- C153. "Off" is always true: whatever failed before, if the node has said last that it does not gossip, both topics are
off and without subscriptions. -/
theorem C153_off_is_off (bj tj : Bool) (cs : List (Bool × GMan.Outcome)) (o : GMan.Outcome) :
    (GMan.toggles (GMan.newBoth bj tj) (cs ++ [(false, o)])).told.getLast? = some false ∧
    (GMan.toggles (GMan.newBoth bj tj) (cs ++ [(false, o)])).block.live = [] ∧
    (GMan.toggles (GMan.newBoth bj tj) (cs ++ [(false, o)])).tx.live = [] := by
  have key : ∀ (cs : List (Bool × GMan.Outcome)) (b : GMan.Both),
      GMan.toggles b (cs ++ [(false, o)]) = GMan.enableGossip (GMan.toggles b cs) false o := by
    intro cs
    induction cs with
    | nil => intro b; rfl
    | cons c cs ih => intro b; exact ih _
  rw [key]
  obtain ⟨h1, h2⟩ := toggles_inv cs (GMan.newBoth bj tj) (Inv.new bj) (Inv.new tj)
  refine ⟨by simp [GMan.enableGossip], ?_, ?_⟩
  · exact (h1.stop.off (stop_enabled h1)).2.1
  · exact (h2.stop.off (stop_enabled h2)).2.1

/-- C153, refuted in full: the node announces that it gossips although it has not got a subscription and answers "no" to
every publication, because the errors of `Join` and `Subscribe` are only logged or discarded (gossip.go:57-61, 291). It is so
if the topic of blocks was not joined, for ever; and if a subscription failed, until gossip is switched off and on again:
switching on is not tried again while the node takes itself to be gossiping. -/
theorem C153_status_refuted :
    (∃ (joined : Bool) (o : GMan.Outcome),
      (GMan.toggles (GMan.newBoth joined true) [(true, o)]).told.getLast? = some true ∧
      (GMan.toggles (GMan.newBoth joined true) [(true, o)]).block.live = [] ∧ joined = true) ∧
    ∀ (cs : List (Bool × GMan.Outcome)) (o : GMan.Outcome),
      (GMan.toggles (GMan.newBoth false true) (cs ++ [(true, o)])).told.getLast? = some true ∧
      (GMan.toggles (GMan.newBoth false true) (cs ++ [(true, o)])).block.live = [] := by
  constructor
  · exact ⟨true, ⟨true, false, true, true⟩, rfl, rfl, rfl⟩
  · intro cs o
    have key : ∀ (cs : List (Bool × GMan.Outcome)) (b : GMan.Both),
        GMan.toggles b (cs ++ [(true, o)]) = GMan.enableGossip (GMan.toggles b cs) true o := by
      intro cs
      induction cs with
      | nil => intro b; rfl
      | cons c cs ih => intro b; exact ih _
    have hi := (toggles_inv (cs ++ [(true, o)]) (GMan.newBoth false true) (Inv.new false) (Inv.new true)).1
    refine ⟨by rw [key]; simp [GMan.enableGossip], ?_⟩
    refine (hi.off ?_).2.1
    cases he : (GMan.toggles (GMan.newBoth false true) (cs ++ [(true, o)])).block.enabled with
    | false => rfl
    | true => exact absurd (hi.on he).1 (by decide)

/-- C153, partial. If registering the validators succeeds when gossip is switched on for the first time (later it fails,
because the topic has a validator already), then at no time is a topic subscribed to without a validator. Missing: the first
registration fails; see `C153_validated_refuted`. -/
theorem C153_validated_partial (bj tj : Bool) (cs : List (Bool × GMan.Outcome))
    (hok : ∀ pre o post, cs = pre ++ (true, o) :: post → (∀ c ∈ pre, c.1 = false) → o.blockReg = true ∧ o.txReg = true) :
    ((GMan.toggles (GMan.newBoth bj tj) cs).block.live ≠ [] → (GMan.toggles (GMan.newBoth bj tj) cs).block.validator = true) ∧
    ((GMan.toggles (GMan.newBoth bj tj) cs).tx.live ≠ [] → (GMan.toggles (GMan.newBoth bj tj) cs).tx.validator = true) := by
  -- once there are validators, they stay
  have stay : ∀ (cs : List (Bool × GMan.Outcome)) (b : GMan.Both), b.block.validator = true → b.tx.validator = true →
      (GMan.toggles b cs).block.validator = true ∧ (GMan.toggles b cs).tx.validator = true := by
    intro cs
    induction cs with
    | nil => intro b h1 h2; exact ⟨h1, h2⟩
    | cons c cs ih =>
      intro b h1 h2
      obtain ⟨on, o⟩ := c
      cases on with
      | true =>
        refine ih _ ?_ ?_
        · exact launch_validator (Or.inl h1)
        · exact launch_validator (Or.inl h2)
      | false => exact ih _ ((stop_validator _).trans h1) ((stop_validator _).trans h2)
  -- before gossip is first switched on there are no subscriptions
  have key : ∀ (cs : List (Bool × GMan.Outcome)) (b : GMan.Both), Inv bj b.block → Inv tj b.tx →
      b.block.enabled = false → b.tx.enabled = false →
      (∀ pre o post, cs = pre ++ (true, o) :: post → (∀ c ∈ pre, c.1 = false) → o.blockReg = true ∧ o.txReg = true) →
      Guarded (GMan.toggles b cs).block ∧ Guarded (GMan.toggles b cs).tx := by
    intro cs
    induction cs with
    | nil => intro b _ _ h1 h2 _; exact ⟨fun h => absurd (h1.symm.trans h) (by decide), fun h => absurd (h2.symm.trans h) (by decide)⟩
    | cons c cs ih =>
      intro b i1 i2 _ _ hc
      obtain ⟨on, o⟩ := c
      cases on with
      | true =>
        obtain ⟨g1, g2⟩ := hc [] o cs rfl (by simp)
        obtain ⟨v1, v2⟩ := stay cs (enableGossip b true o) (launch_validator (Or.inr g1)) (launch_validator (Or.inr g2))
        exact ⟨fun _ => v1, fun _ => v2⟩
      | false =>
        refine ih _ i1.stop i2.stop (stop_enabled i1) (stop_enabled i2) ?_
        intro pre o' post he hp
        exact hc ((false, o) :: pre) o' post (by rw [he]; rfl) (by
          intro c hm
          rcases List.mem_cons.1 hm with rfl | hm
          · rfl
          · exact hp c hm)
  obtain ⟨i1, i2⟩ := toggles_inv cs (GMan.newBoth bj tj) (Inv.new bj) (Inv.new tj)
  obtain ⟨k1, k2⟩ := key cs (GMan.newBoth bj tj) (Inv.new bj) (Inv.new tj) rfl rfl hok
  constructor
  · intro hl
    cases he : (GMan.toggles (GMan.newBoth bj tj) cs).block.enabled with
    | true => exact k1 he
    | false => exact absurd (i1.off he).2.1 hl
  · intro hl
    cases he : (GMan.toggles (GMan.newBoth bj tj) cs).tx.enabled with
    | true => exact k2 he
    | false => exact absurd (i2.off he).2.1 hl

/-- C153, refuted in full: the error of `RegisterValidator` is discarded (gossip.go:290, 383), and then the node subscribes
all the same: messages come in, and are passed on, that nobody has looked at. -/
theorem C153_validated_refuted :
    ∃ o : GMan.Outcome, (GMan.toggles (GMan.newBoth true true) [(true, o)]).block.live ≠ [] ∧
      (GMan.toggles (GMan.newBoth true true) [(true, o)]).block.validator = false :=
  ⟨⟨false, true, true, true⟩, (by simp [toggles, enableGossip, launch, start, newBoth, new]),
    (by simp [toggles, enableGossip, launch, start, newBoth, new])⟩

/-- C153, refuted: `PublishMessage` says "yes" although the library refused the message (gossip.go:119), and the message
counts as published in the statistics. -/
theorem C153_sent_refuted :
    ∃ (ls : List GMan.Label) (s : GMan.State) (x : Bytes), GMan.run (GMan.new true) ls = some s ∧
      GMan.Pub.answered x true ∈ s.pubs ∧ s.sent = [] :=
  ⟨[.register true, .start true, .check [1], .publish 0 false], _, [1], rfl, (by decide), rfl⟩

/-- C153, partial. A message for which `PublishMessage` says "yes" has been taken by the library if the library refuses
nothing. Missing: refusals; see `C153_sent_refuted`. -/
theorem C153_sent_partial (joined : Bool) (ls : List GMan.Label) (s : GMan.State)
    (h : GMan.run (GMan.new joined) ls = some s) (hok : ∀ i, GMan.Label.publish i false ∉ ls) (x : Bytes) :
    GMan.Pub.answered x true ∈ s.pubs → x ∈ s.sent := by
  have key : ∀ (ls : List GMan.Label) (s0 : GMan.State), GMan.run s0 ls = some s →
      (∀ i, GMan.Label.publish i false ∉ ls) →
      (GMan.Pub.answered x true ∈ s0.pubs → x ∈ s0.sent) → GMan.Pub.answered x true ∈ s.pubs → x ∈ s.sent := by
    intro ls
    induction ls with
    | nil => intro s0 hr _ h0; cases hr; exact h0
    | cons l ls ih =>
      intro s0 hr hl h0
      simp only [GMan.run] at hr
      split at hr
      · next s1 hs =>
        refine ih s1 hr (fun i hm => hl i (List.mem_cons_of_mem _ hm)) ?_
        unfold GMan.step at hs
        split at hs
        · cases hs
        · cases l with
          | register ok => cases hs; exact h0
          | start ok =>
            cases hs
            unfold GMan.start
            split; exact h0; split; exact h0; split <;> exact h0
          | stop =>
            cases hs
            unfold GMan.stop
            split; exact h0; split <;> exact h0
          | check y =>
            cases hs
            intro hm
            rcases List.mem_append.1 hm with hm | hm
            · exact h0 hm
            · rw [List.mem_singleton] at hm
              split at hm <;> cases hm
          | publish i ok =>
            simp only at hs
            split at hs
            · next y hy =>
              split at hs
              · cases hs
                cases ok with
                | false => exact absurd List.mem_cons_self (hl i)
                | true =>
                  intro hm
                  simp only [if_true]
                  rcases List.mem_or_eq_of_mem_set hm with hm | hm
                  · exact List.mem_append_left _ (h0 hm)
                  · cases hm; simp
              · cases hs; exact h0
            · cases hs
      · cases hr
  exact key ls _ h hok (by simp [GMan.new])

/-- The hypotheses of `C153_status_partial` and `C153_validated_partial` can be met: on, off, on. -/
example :
    let o : GMan.Outcome := ⟨true, true, true, true⟩
    let b := GMan.toggles (GMan.newBoth true true) [(true, o), (false, o), (true, ⟨false, true, false, true⟩)]
    b.told = [true, false, true] ∧ b.block.live = [1] ∧ b.tx.live = [1] ∧ b.block.validator = true :=
  ⟨rfl, rfl, rfl, rfl⟩

end KP2P

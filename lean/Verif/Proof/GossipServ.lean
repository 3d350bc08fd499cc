import Verif.Props.GossipRun
import Verif.Spec.GossipServ
/-!
# Proofs about the gossip service as a whole
-/

namespace KP2P
namespace Serv
open KP2P.Spec.Serv

/-- What one step of a topic's own goroutines leaves as it is. -/
structure Own (t t' : GossipRun.State) : Prop where
  len : t'.gens.length = t.gens.length
  gen : ∀ (i : Nat) g', t'.gens[i]? = some g' → ∃ g, t.gens[i]? = some g ∧ g'.cancelled = g.cancelled ∧
    (g'.pc = .spawned → g.pc = .spawned)
  over : t'.over = t.over
  on : t.enabled = true → t'.enabled = true
  fresh : t'.enabled = true → t.enabled = true ∨ ∃ (i : Nat) (g : GossipRun.Gen), t.gens[i]? = some g ∧ g.pc = .spawned
  started : (∃ (i : Nat) (g : GossipRun.Gen), t.gens[i]? = some g ∧ g.pc = .spawned) →
    t'.enabled = true ∨ ∃ (i : Nat) (g : GossipRun.Gen), t'.gens[i]? = some g ∧ g.pc = .spawned

theorem put_gen {t : GossipRun.State} {j : Nat} {x x' : GossipRun.Gen} (hx : t.gens[j]? = some x)
    (hc : x'.cancelled = x.cancelled) (hp : x'.pc = .spawned → x.pc = .spawned) :
    ∀ (i : Nat) g', (t.put j x').gens[i]? = some g' → ∃ g, t.gens[i]? = some g ∧ g'.cancelled = g.cancelled ∧
      (g'.pc = .spawned → g.pc = .spawned) := by
  intro i g' hi
  by_cases hj : j = i
  · subst hj
    simp only [GossipRun.State.put] at hi
    rw [List.getElem?_set_self (List.getElem?_eq_some_iff.1 hx).1] at hi
    cases hi
    exact ⟨x, hx, hc, hp⟩
  · simp only [GossipRun.State.put] at hi
    rw [List.getElem?_set_ne hj] at hi
    exact ⟨g', hi, rfl, id⟩

theorem put_spawned {t : GossipRun.State} {j : Nat} {x x' : GossipRun.Gen} (hx : t.gens[j]? = some x)
    (hp : x.pc = .spawned → x'.pc = .spawned)
    (h : ∃ (i : Nat) (g : GossipRun.Gen), t.gens[i]? = some g ∧ g.pc = .spawned) :
    ∃ (i : Nat) (g : GossipRun.Gen), (t.put j x').gens[i]? = some g ∧ g.pc = .spawned := by
  obtain ⟨i, g, hi, hg⟩ := h
  by_cases hj : j = i
  · subst hj
    rw [hx] at hi; cases hi
    exact ⟨j, x', by simp [GossipRun.State.put, List.getElem?_set_self (List.getElem?_eq_some_iff.1 hx).1], hp hg⟩
  · exact ⟨i, g, by simp [GossipRun.State.put, List.getElem?_set_ne hj, hi], hg⟩

theorem own_refl (t : GossipRun.State) : Own t t :=
  ⟨rfl, fun _ g h => ⟨g, h, rfl, id⟩, rfl, id, Or.inl, Or.inr⟩

theorem own_put {t : GossipRun.State} {j : Nat} {x x' : GossipRun.Gen} (hx : t.gens[j]? = some x)
    (hc : x'.cancelled = x.cancelled) (hp : x'.pc = .spawned ↔ x.pc = .spawned) : Own t (t.put j x') :=
  ⟨by simp [GossipRun.State.put], put_gen hx hc hp.1, rfl, id, Or.inl, fun h => Or.inr (put_spawned hx hp.2 h)⟩

theorem own_step {cap : GossipRun.Cap} {t t' : GossipRun.State} {l : GossipRun.Label} (ho : own l = true)
    (h : GossipRun.step cap t l = some t') : Own t t' := by
  obtain ⟨_, he⟩ := GossipRun.step_eff h
  cases he with
  | start => cases ho
  | launchIdle i g hg hp he =>
    exact ⟨by simp [GossipRun.State.put], put_gen hg rfl (by simp), rfl, id, Or.inl, fun _ => Or.inl he⟩
  | launch i g hg hp he =>
    exact ⟨by simp [GossipRun.State.put], put_gen hg rfl (by simp), rfl, fun _ => rfl, fun _ => Or.inr ⟨i, g, hg, hp⟩,
      fun _ => Or.inl rfl⟩
  | stop => cases ho
  | stopIdle => cases ho
  | cancel => cases ho
  | cancelIdle => cases ho
  | cancelGen => cases ho
  | over => cases ho
  | publish x he => exact ⟨rfl, fun _ g h => ⟨g, h, rfl, id⟩, rfl, id, Or.inl, Or.inr⟩
  | publishIdle => exact own_refl _
  | message i g hg _ => exact own_put hg rfl Iff.rfl
  | failed i g hg _ _ => exact own_put hg rfl Iff.rfl
  | crash i g hg _ _ => exact ⟨rfl, fun _ g h => ⟨g, h, rfl, id⟩, rfl, id, Or.inl, Or.inr⟩
  | send i g hg _ _ => exact own_put hg rfl Iff.rfl
  | quit i g hg _ _ => exact own_put hg rfl Iff.rfl
  | receive i g hg _ _ => exact own_put hg rfl Iff.rfl
  | leave i g hg hp _ => exact own_put hg rfl (by simp [hp])

/-- What `GossipManager.Stop` does. -/
structure Stops (t t' : GossipRun.State) : Prop where
  len : t'.gens.length = t.gens.length
  gen : ∀ (i : Nat) g', t'.gens[i]? = some g' → ∃ g, t.gens[i]? = some g ∧ g'.cancelled = g.cancelled ∧
    (g'.pc = .spawned → g.pc = .spawned)
  over : t'.over = t.over
  off : t'.enabled = false

theorem stop_step {cap : GossipRun.Cap} {t t' : GossipRun.State} (h : GossipRun.step cap t .stop = some t') : Stops t t' := by
  obtain ⟨_, he⟩ := GossipRun.step_eff h
  cases he with
  | stop i g hg _ => exact ⟨by simp [GossipRun.State.put], put_gen hg rfl id, rfl, rfl⟩
  | stopIdle he => exact ⟨rfl, fun _ g h => ⟨g, h, rfl, id⟩, rfl, he⟩

/-- What a call of a cancel function does. -/
structure CancelsGen (k : Nat) (t t' : GossipRun.State) : Prop where
  len : t'.gens.length = t.gens.length
  gen : ∀ (i : Nat) g', t'.gens[i]? = some g' → (i = k ∧ g'.cancelled = true ∨ i ≠ k ∧ ∃ g, t.gens[i]? = some g ∧ g'.cancelled = g.cancelled)
  pc : ∀ (i : Nat) g', t'.gens[i]? = some g' → ∃ g, t.gens[i]? = some g ∧ (g'.pc = .spawned → g.pc = .spawned)
  over : t'.over = t.over
  same : t'.enabled = t.enabled

theorem cancel_step {cap : GossipRun.Cap} {t t' : GossipRun.State} {k : Nat}
    (h : GossipRun.step cap t (.cancelGen k) = some t') : CancelsGen k t t' := by
  obtain ⟨_, he⟩ := GossipRun.step_eff h
  cases he with
  | cancelGen _ g hg =>
    refine ⟨by simp [GossipRun.State.put], fun i g' hi => ?_, fun i g' hi => ?_, rfl, rfl⟩
    · by_cases hj : k = i
      · subst hj
        simp only [GossipRun.State.put] at hi
        rw [List.getElem?_set_self (List.getElem?_eq_some_iff.1 hg).1] at hi
        cases hi; exact Or.inl ⟨rfl, rfl⟩
      · simp only [GossipRun.State.put] at hi
        rw [List.getElem?_set_ne hj] at hi
        exact Or.inr ⟨fun e => hj e.symm, g', hi, rfl⟩
    · by_cases hj : k = i
      · subst hj
        simp only [GossipRun.State.put] at hi
        rw [List.getElem?_set_self (List.getElem?_eq_some_iff.1 hg).1] at hi
        cases hi; exact ⟨g, hg, id⟩
      · simp only [GossipRun.State.put] at hi
        rw [List.getElem?_set_ne hj] at hi
        exact ⟨g', hi, id⟩

/-- What one statement of `EnableGossip` does. -/
inductive Act (cap : GossipRun.Cap) (s : State) : Call → State → Option Call → Prop
  | start (b t : GossipRun.State) : GossipRun.step cap s.block .start = some b → GossipRun.step cap s.tx .start = some t →
      Act cap s .start { s with block := b, tx := t, ptr := some s.block.gens.length, stats := s.stats ++ [.sleeping] }
        (some (.tell true))
  | stopBlock (b : GossipRun.State) : GossipRun.step cap s.block .stop = some b → Act cap s .stopBlock { s with block := b } (some .stopTx)
  | stopTx (t : GossipRun.State) : GossipRun.step cap s.tx .stop = some t → Act cap s .stopTx { s with tx := t } (some .check)
  | checkSome (k : Nat) : s.ptr = some k → Act cap s .check s (some .cancel)
  | checkNone : s.ptr = none → Act cap s .check s (some (.tell false))
  | panic : s.ptr = none → Act cap s .cancel { s with panicked := true } none
  | cancel (k : Nat) (b t : GossipRun.State) : s.ptr = some k → GossipRun.step cap s.block (.cancelGen k) = some b →
      GossipRun.step cap s.tx (.cancelGen k) = some t → Act cap s .cancel { s with block := b, tx := t } (some .clear)
  | clear : Act cap s .clear { s with ptr := none } (some (.tell false))
  | tell (on : Bool) : Act cap s (.tell on) { s with told := s.told ++ [on] } none

theorem act_act {cap : GossipRun.Cap} {s s' : State} {c : Call} {n : Option Call} (h : act cap s c = some (s', n)) :
    Act cap s c s' n := by
  cases c with
  | start =>
    simp only [act] at h
    split at h
    · rename_i b t hb ht; cases h; exact .start b t hb ht
    · cases h
  | stopBlock =>
    simp only [act] at h
    split at h
    · rename_i b hb; cases h; exact .stopBlock b hb
    · cases h
  | stopTx =>
    simp only [act] at h
    split at h
    · rename_i b hb; cases h; exact .stopTx b hb
    · cases h
  | check =>
    simp only [act] at h
    cases hp : s.ptr with
    | none => rw [hp] at h; simp at h; obtain ⟨rfl, rfl⟩ := h; exact .checkNone hp
    | some k => rw [hp] at h; simp at h; obtain ⟨rfl, rfl⟩ := h; exact .checkSome k hp
  | cancel =>
    simp only [act] at h
    split at h
    · rename_i hp; cases h; exact .panic hp
    · rename_i k hp
      split at h
      · rename_i b t hb ht; cases h; exact .cancel k b t hp hb ht
      · cases h
  | clear => simp only [act] at h; cases h; exact .clear
  | tell on => simp only [act] at h; cases h; exact .tell on

/-- What a step does, one constructor per way of ending. -/
inductive Tr (cap : GossipRun.Cap) (o : ToggleOpts) (s : State) : Label → State → Prop
  | block (l : GossipRun.Label) (b : GossipRun.State) : own l = true → GossipRun.step cap s.block l = some b →
      Tr cap o s (.block l) { s with block := b, blocks := if b.published.length = s.block.published.length then s.blocks else s.blocks + 1 }
  | tx (l : GossipRun.Label) (t : GossipRun.State) : own l = true → GossipRun.step cap s.tx l = some t →
      Tr cap o s (.tx l) { s with tx := t, trxs := if t.published.length = s.tx.published.length then s.trxs else s.trxs + 1 }
  | beginOn : s.tog = .fresh → o.alwaysEnable = true → Tr cap o s .begin { s with tog := .calling true .start }
  | beginOff : s.tog = .fresh → o.alwaysEnable = false → o.alwaysDisable = true → Tr cap o s .begin { s with tog := .returned, enabled := false }
  | beginLoop : s.tog = .fresh → o.alwaysEnable = false → o.alwaysDisable = false → Tr cap o s .begin { s with tog := .idle }
  | head (t : UInt64) : Tr cap o s (.head t) { s with headTime := t }
  | tickSame (c n : Int) : s.tog = .idle → (Toggle.tick ⟨s.enabled, s.headTime, [], true⟩ c n).enabled = s.enabled → Tr cap o s (.tick c n) s
  | tickOn (c n : Int) : s.tog = .idle → s.enabled = false → (Toggle.tick ⟨s.enabled, s.headTime, [], true⟩ c n).enabled = true →
      Tr cap o s (.tick c n) { s with tog := .calling true .start }
  | tickOff (c n : Int) : s.tog = .idle → s.enabled = true → (Toggle.tick ⟨s.enabled, s.headTime, [], true⟩ c n).enabled = false →
      Tr cap o s (.tick c n) { s with tog := .calling false .stopBlock }
  | leave : s.tog = .idle → s.block.over = true → Tr cap o s .leave { s with tog := .returned }
  | toggle (on : Bool) (c c' : Call) (s' : State) : s.tog = .calling on c → Act cap s c s' (some c') →
      Tr cap o s .toggle { s' with tog := .calling on c' }
  | toggleEnd (on : Bool) (c : Call) (s' : State) : s.tog = .calling on c → Act cap s c s' none →
      Tr cap o s .toggle { s' with tog := .setting on }
  | setOne (on : Bool) : s.tog = .setting on → o.alwaysEnable = true → Tr cap o s .set { s with enabled := on, tog := .returned }
  | set (on : Bool) : s.tog = .setting on → o.alwaysEnable = false → Tr cap o s .set { s with enabled := on, tog := .idle }
  | close : s.close = .notYet → Tr cap o s .close { s with close := .calling .stopBlock }
  | closing (c c' : Call) (s' : State) : s.close = .calling c → Act cap s c s' (some c') →
      Tr cap o s .closing { s' with close := .calling c' }
  | closingEnd (c : Call) (s' : State) : s.close = .calling c → Act cap s c s' none →
      Tr cap o s .closing { s' with close := .host }
  | closed : s.close = .host → Tr cap o s .closing { s with close := .closed }
  | over (b t : GossipRun.State) : GossipRun.step cap s.block .over = some b → GossipRun.step cap s.tx .over = some t →
      Tr cap o s .over { s with block := b, tx := t }
  | take (i : Nat) : s.stats[i]? = some .sleeping → Tr cap o s (.take i) { s with stats := s.stats.set i (.took s.blocks), blocks := 0 }
  | log (i : Nat) (n : UInt32) : s.stats[i]? = some (.took n) → Tr cap o s (.log i)
      { s with stats := s.stats.set i .sleeping, trxs := 0, logged := if n > 0 ∨ s.trxs > 0 then s.logged ++ [(n, s.trxs)] else s.logged }
  | finish (i : Nat) (g : GossipRun.Gen) : s.stats[i]? = some .sleeping → s.block.gens[i]? = some g → g.cancelled = true →
      Tr cap o s (.finish i) { s with stats := s.stats.set i .returned }

theorem step_tr {cap : GossipRun.Cap} {o : ToggleOpts} {s s' : State} {l : Label} (h : step cap o s l = some s') :
    s.dead = false ∧ Tr cap o s l s' := by
  unfold step at h
  by_cases hd : s.dead = true
  · rw [if_pos hd] at h; cases h
  refine ⟨by simpa using hd, ?_⟩
  rw [if_neg hd] at h
  cases l with
  | block l =>
    dsimp only at h
    split at h
    · rename_i ho
      split at h
      · rename_i b hb; cases h; exact .block l b ho hb
      · cases h
    · cases h
  | tx l =>
    dsimp only at h
    split at h
    · rename_i ho
      split at h
      · rename_i b hb; cases h; exact .tx l b ho hb
      · cases h
    · cases h
  | begin =>
    dsimp only at h
    split at h
    · rename_i hf
      split at h
      · rename_i he; cases h; exact .beginOn hf he
      · rename_i he
        have he' : o.alwaysEnable = false := by simpa using he
        split at h
        · rename_i hd; cases h; exact .beginOff hf he' hd
        · rename_i hd; cases h; exact .beginLoop hf he' (by simpa using hd)
    · cases h
  | head t => cases h; exact .head t
  | tick c n =>
    dsimp only at h
    split at h
    · rename_i hi
      split at h
      · rename_i hw; cases h; exact .tickSame c n hi hw
      · rename_i hw
        cases hw' : (Toggle.tick ⟨s.enabled, s.headTime, [], true⟩ c n).enabled with
        | true =>
          rw [hw'] at h hw; cases h
          exact .tickOn c n hi (by cases he : s.enabled <;> simp_all) hw'
        | false =>
          rw [hw'] at h hw; cases h
          exact .tickOff c n hi (by cases he : s.enabled <;> simp_all) hw'
    · cases h
  | leave =>
    dsimp only at h
    split at h
    · rename_i hi; cases h; exact .leave hi.1 hi.2
    · cases h
  | toggle =>
    dsimp only at h
    split at h
    · rename_i on c ht
      split at h
      · rename_i s1 c' ha; cases h; exact .toggle on c c' s1 ht (act_act ha)
      · rename_i s1 ha; cases h; exact .toggleEnd on c s1 ht (act_act ha)
      · cases h
    · cases h
  | set =>
    dsimp only at h
    split at h
    · rename_i on ht
      cases h
      cases he : o.alwaysEnable with
      | true => simp only [if_true]; exact .setOne on ht he
      | false => simp only [Bool.false_eq_true, if_false]; exact .set on ht he
    · cases h
  | close =>
    dsimp only at h
    split at h
    · rename_i hc; cases h; exact .close hc
    · cases h
  | closing =>
    dsimp only at h
    split at h
    · rename_i c ht
      split at h
      · rename_i s1 c' ha; cases h; exact .closing c c' s1 ht (act_act ha)
      · rename_i s1 ha; cases h; exact .closingEnd c s1 ht (act_act ha)
      · cases h
    · rename_i ht; cases h; exact .closed ht
    · cases h
  | over =>
    dsimp only at h
    split at h
    · rename_i b t hb ht; cases h; exact .over b t hb ht
    · cases h
  | take i =>
    dsimp only at h
    split at h
    · rename_i hs; cases h; exact .take i hs
    · cases h
  | log i =>
    dsimp only at h
    split at h
    · rename_i n hs; cases h; exact .log i n hs
    · cases h
  | finish i =>
    dsimp only at h
    split at h
    · rename_i g hs hg
      split at h
      · rename_i hc; cases h; exact .finish i g hs hg hc
      · cases h
    · cases h

/-! ### One topic -/

def Spawned (t : GossipRun.State) : Prop := ∃ (i : Nat) (g : GossipRun.Gen), t.gens[i]? = some g ∧ g.pc = .spawned

/-- Switched on, or about to be. -/
def TopicOn (t : GossipRun.State) : Prop := t.enabled = true ∨ Spawned t

/-- Switched off for good. -/
def TopicOff (t : GossipRun.State) : Prop := t.enabled = false ∧ TopicLaunched t

theorem on_own {t t' : GossipRun.State} (h : Own t t') (ht : TopicOn t) : TopicOn t' := by
  rcases ht with ht | ht
  · exact Or.inl (h.on ht)
  · exact h.started ht

theorem launched_own {t t' : GossipRun.State} (h : Own t t') (ht : TopicLaunched t) : TopicLaunched t' := by
  intro i g' hi hp
  obtain ⟨g, hg, _, hs⟩ := h.gen i g' hi
  exact ht i g hg (hs hp)

theorem off_own {t t' : GossipRun.State} (h : Own t t') (ht : TopicOff t) : TopicOff t' := by
  refine ⟨?_, launched_own h ht.2⟩
  cases he : t'.enabled with
  | false => rfl
  | true =>
    rcases h.fresh he with h1 | ⟨i, g, hg, hp⟩
    · rw [ht.1] at h1; cases h1
    · exact absurd hp (ht.2 i g hg)

theorem off_stop {t t' : GossipRun.State} (h : Stops t t') (ht : TopicLaunched t) : TopicOff t' := by
  refine ⟨h.off, fun i g' hi hp => ?_⟩
  obtain ⟨g, hg, _, hs⟩ := h.gen i g' hi
  exact ht i g hg (hs hp)

theorem off_cancel {k : Nat} {t t' : GossipRun.State} (h : CancelsGen k t t') (ht : TopicOff t) : TopicOff t' := by
  refine ⟨h.same.trans ht.1, fun i g' hi hp => ?_⟩
  obtain ⟨g, hg, hs⟩ := h.pc i g' hi
  exact ht.2 i g hg (hs hp)

/-- What the end of the node's context does. -/
structure Overs (t t' : GossipRun.State) : Prop where
  len : t'.gens.length = t.gens.length
  gen : ∀ (i : Nat) g', t'.gens[i]? = some g' → g'.cancelled = true ∧ ∃ g, t.gens[i]? = some g ∧ g'.pc = g.pc
  back : ∀ (i : Nat) g, t.gens[i]? = some g → ∃ g', t'.gens[i]? = some g' ∧ g'.pc = g.pc
  same : t'.enabled = t.enabled

theorem over_step {cap : GossipRun.Cap} {t t' : GossipRun.State} (h : GossipRun.step cap t .over = some t') : Overs t t' := by
  obtain ⟨_, he⟩ := GossipRun.step_eff h
  cases he
  refine ⟨by simp, fun i g' hi => ?_, fun i g hi => ?_, rfl⟩
  · dsimp only at hi
    rw [List.getElem?_map, Option.map_eq_some_iff] at hi
    obtain ⟨x, hx, rfl⟩ := hi
    exact ⟨rfl, x, hx, rfl⟩
  · refine ⟨{ g with cancelled := true }, ?_, rfl⟩
    dsimp only; rw [List.getElem?_map, hi]; rfl

theorem launched_over {t t' : GossipRun.State} (h : Overs t t') (ht : TopicLaunched t) : TopicLaunched t' := by
  intro i g' hi hp
  obtain ⟨_, g, hg, hs⟩ := h.gen i g' hi
  exact ht i g hg (hs ▸ hp)

theorem off_over {t t' : GossipRun.State} (h : Overs t t') (ht : TopicOff t) : TopicOff t' :=
  ⟨h.same.trans ht.1, launched_over h ht.2⟩

theorem on_over {t t' : GossipRun.State} (h : Overs t t') (ht : TopicOn t) : TopicOn t' := by
  rcases ht with ht | ⟨i, g, hg, hp⟩
  · exact Or.inl (h.same.trans ht)
  · obtain ⟨g', hg', hs⟩ := h.back i g hg
    exact Or.inr ⟨i, g', hg', hs.trans hp⟩

theorem start_step {cap : GossipRun.Cap} {t t' : GossipRun.State} (h : GossipRun.step cap t .start = some t') :
    ∃ g : GossipRun.Gen, t'.gens = t.gens ++ [g] ∧ g.pc = .spawned := by
  obtain ⟨_, he⟩ := GossipRun.step_eff h
  cases he
  exact ⟨_, rfl, rfl⟩

theorem on_start {cap : GossipRun.Cap} {t t' : GossipRun.State} (h : GossipRun.step cap t .start = some t') : TopicOn t' := by
  obtain ⟨g, hg, hp⟩ := start_step h
  exact Or.inr ⟨t.gens.length, g, by simp [hg], hp⟩

/-! ### Which contexts are still alive -/

/-- Every context is cancelled, but for the one `kg.gossipCancel` points to; that one, too, if `cl`. -/
structure Cover (k : Option Nat) (cl : Bool) (t : GossipRun.State) : Prop where
  bound : ∀ i, k = some i → i < t.gens.length
  gen : ∀ (i : Nat) g, t.gens[i]? = some g → g.cancelled = true ∨ (k = some i ∧ cl = false)

theorem cover_same {k : Option Nat} {cl : Bool} {t t' : GossipRun.State} (hc : Cover k cl t)
    (hl : t'.gens.length = t.gens.length)
    (hg : ∀ (i : Nat) g', t'.gens[i]? = some g' → ∃ g, t.gens[i]? = some g ∧ g'.cancelled = g.cancelled) :
    Cover k cl t' := by
  refine ⟨fun i hi => hl ▸ hc.bound i hi, fun i g' hi => ?_⟩
  obtain ⟨g, h1, h2⟩ := hg i g' hi
  rw [h2]; exact hc.gen i g h1

theorem cover_own {k : Option Nat} {cl : Bool} {t t' : GossipRun.State} (h : Own t t') (hc : Cover k cl t) : Cover k cl t' :=
  cover_same hc h.len fun i g' hi => by
    obtain ⟨g, h1, h2, _⟩ := h.gen i g' hi
    exact ⟨g, h1, h2⟩

theorem cover_stop {k : Option Nat} {cl : Bool} {t t' : GossipRun.State} (h : Stops t t') (hc : Cover k cl t) : Cover k cl t' :=
  cover_same hc h.len fun i g' hi => by
    obtain ⟨g, h1, h2, _⟩ := h.gen i g' hi
    exact ⟨g, h1, h2⟩

theorem cover_over {k : Option Nat} {cl : Bool} {t t' : GossipRun.State} (h : Overs t t') (hc : Cover k cl t) : Cover k cl t' :=
  ⟨fun i hi => h.len ▸ hc.bound i hi, fun i g' hi => Or.inl (h.gen i g' hi).1⟩

theorem cover_cancel {k : Nat} {t t' : GossipRun.State} (h : CancelsGen k t t') (hc : Cover (some k) false t) :
    Cover (some k) true t' := by
  refine ⟨fun i hi => h.len ▸ hc.bound i hi, fun i g' hi => ?_⟩
  rcases h.gen i g' hi with ⟨_, h1⟩ | ⟨hne, g, h1, h2⟩
  · exact Or.inl h1
  · rcases hc.gen i g h1 with h3 | ⟨h3, _⟩
    · exact Or.inl (h2.trans h3)
    · cases h3; exact absurd rfl hne

theorem cover_clear {k : Option Nat} {t : GossipRun.State} (hc : Cover k true t) : Cover none false t :=
  ⟨fun i hi => (by cases hi), fun i g hi => (hc.gen i g hi).imp id fun h => (by cases h.2)⟩

theorem cover_start {cap : GossipRun.Cap} {t t' : GossipRun.State} (h : GossipRun.step cap t .start = some t')
    (hc : Cover none false t) {n : Nat} (hn : n = t.gens.length) : Cover (some n) false t' := by
  obtain ⟨g, hg, _⟩ := start_step h
  subst hn
  refine ⟨fun i hi => by cases hi; simp [hg], fun i x hi => ?_⟩
  rw [hg] at hi
  by_cases hlt : i < t.gens.length
  · rw [List.getElem?_append_left hlt] at hi
    rcases hc.gen i x hi with h | ⟨h, _⟩
    · exact Or.inl h
    · cases h
  · have := (List.getElem?_eq_some_iff.1 hi).1
    simp at this
    right; rw [show i = t.gens.length by omega]; exact ⟨rfl, rfl⟩

/-! ### While the node is not being closed -/

def clearing : Tog → Bool
  | .calling _ .clear => true
  | _ => false

/-- What the toggle has told, what it says and whether `kg.gossipCancel` is set, at each point of its goroutine. -/
def Phase (enabled told : Bool) (ptr : Option Nat) : Tog → Prop
  | .fresh => enabled = false ∧ told = false ∧ ptr = none
  | .idle => told = enabled ∧ ptr.isSome = enabled
  | .returned => told = enabled ∧ ptr.isSome = enabled
  | .setting on => enabled = !on ∧ told = on ∧ ptr.isSome = on
  | .calling true .start => enabled = false ∧ told = false ∧ ptr = none
  | .calling true (.tell true) => enabled = false ∧ told = false ∧ ptr.isSome = true
  | .calling false (.tell false) => enabled = true ∧ told = true ∧ ptr = none
  | .calling false .stopBlock => enabled = true ∧ told = true ∧ ptr.isSome = true
  | .calling false .stopTx => enabled = true ∧ told = true ∧ ptr.isSome = true
  | .calling false .check => enabled = true ∧ told = true ∧ ptr.isSome = true
  | .calling false .cancel => enabled = true ∧ told = true ∧ ptr.isSome = true
  | .calling false .clear => enabled = true ∧ told = true ∧ ptr.isSome = true
  | _ => False

structure Base (s : State) : Prop where
  len : s.tx.gens.length = s.block.gens.length
  coverB : Cover s.ptr (clearing s.tog) s.block
  coverT : Cover s.ptr (clearing s.tog) s.tx
  phase : Phase s.enabled (lastTold s) s.ptr s.tog
  alive : s.panicked = false

theorem base_init : Base init := by
  refine ⟨rfl, ⟨fun i h => (by cases h), fun i g h => (by simp [init, GossipRun.init] at h)⟩,
    ⟨fun i h => (by cases h), fun i g h => (by simp [init, GossipRun.init] at h)⟩, ⟨rfl, rfl, rfl⟩, rfl⟩

theorem lastTold_snoc (s : State) (b : Bool) (t : List Bool) (h : t = s.told ++ [b]) (s' : State) (h' : s'.told = t) :
    lastTold s' = b := by
  unfold lastTold; rw [h', h]; simp

theorem base_step {cap : GossipRun.Cap} {o : ToggleOpts} {s s' : State} {l : Label} (hb : Base s) (hc : s.close = .notYet)
    (hl : l ≠ .close) (h : step cap o s l = some s') : Base s' ∧ s'.close = .notYet := by
  obtain ⟨_, ht⟩ := step_tr h
  obtain ⟨h1, h2, h3, h4, h5⟩ := hb
  cases ht with
  | block l b ho hb =>
    have := own_step ho hb
    exact ⟨⟨h1.trans this.len.symm, cover_own this h2, h3, h4, h5⟩, hc⟩
  | tx l t ho hb =>
    have := own_step ho hb
    exact ⟨⟨this.len.trans h1, h2, cover_own this h3, h4, h5⟩, hc⟩
  | beginOn hf _ =>
    rw [hf] at h2 h3 h4
    exact ⟨⟨h1, h2, h3, h4, h5⟩, hc⟩
  | beginOff hf _ =>
    rw [hf] at h2 h3 h4
    obtain ⟨a, b, c⟩ := h4
    exact ⟨⟨h1, h2, h3, ⟨b, by rw [c]; rfl⟩, h5⟩, hc⟩
  | beginLoop hf _ =>
    rw [hf] at h2 h3 h4
    obtain ⟨a, b, c⟩ := h4
    exact ⟨⟨h1, h2, h3, ⟨b.trans a.symm, by rw [c]; exact a.symm⟩, h5⟩, hc⟩
  | head t => exact ⟨⟨h1, h2, h3, h4, h5⟩, hc⟩
  | tickSame c n hi => exact ⟨⟨h1, h2, h3, h4, h5⟩, hc⟩
  | tickOn c n hi he =>
    rw [hi] at h2 h3 h4
    obtain ⟨a, b⟩ := h4
    refine ⟨⟨h1, h2, h3, ⟨he, a.trans he, ?_⟩, h5⟩, hc⟩
    rw [he] at b
    simpa using b
  | tickOff c n hi he =>
    rw [hi] at h2 h3 h4
    obtain ⟨a, b⟩ := h4
    exact ⟨⟨h1, h2, h3, ⟨he, a.trans he, b.trans he⟩, h5⟩, hc⟩
  | leave hi _ =>
    rw [hi] at h2 h3 h4
    exact ⟨⟨h1, h2, h3, h4, h5⟩, hc⟩
  | toggle on c c' s1 htog ha =>
    rw [htog] at h2 h3 h4
    cases ha with
    | start b t hb ht =>
      cases on with
      | false => exact h4.elim
      | true =>
        obtain ⟨a1, a2, a3⟩ := h4
        rw [a3] at h2 h3
        obtain ⟨g, hg, _⟩ := start_step hb
        obtain ⟨g', hg', _⟩ := start_step ht
        exact ⟨⟨by simp [hg, hg', h1], cover_start hb h2 rfl, cover_start ht h3 h1.symm, ⟨a1, a2, rfl⟩, h5⟩, hc⟩
    | stopBlock b hb =>
      have := stop_step hb
      cases on with
      | true => exact h4.elim
      | false => exact ⟨⟨h1.trans this.len.symm, cover_stop this h2, h3, h4, h5⟩, hc⟩
    | stopTx t ht =>
      have := stop_step ht
      cases on with
      | true => exact h4.elim
      | false => exact ⟨⟨this.len.trans h1, h2, cover_stop this h3, h4, h5⟩, hc⟩
    | checkSome k hk =>
      cases on with
      | true => exact h4.elim
      | false => exact ⟨⟨h1, h2, h3, h4, h5⟩, hc⟩
    | checkNone hk =>
      cases on with
      | true => exact h4.elim
      | false => rw [hk] at h4; cases h4.2.2
    | cancel k b t hk hb ht =>
      cases on with
      | true => exact h4.elim
      | false =>
        have e1 := cancel_step hb
        have e2 := cancel_step ht
        rw [hk] at h2 h3
        refine ⟨⟨by rw [e1.len, e2.len, h1], ?_, ?_, h4, h5⟩, hc⟩
        · dsimp only; rw [hk]; exact cover_cancel e1 h2
        · dsimp only; rw [hk]; exact cover_cancel e2 h3
    | clear =>
      cases on with
      | true => exact h4.elim
      | false => exact ⟨⟨h1, cover_clear h2, cover_clear h3, ⟨h4.1, h4.2.1, rfl⟩, h5⟩, hc⟩
  | toggleEnd on c s1 htog ha =>
    rw [htog] at h2 h3 h4
    cases ha with
    | panic hk =>
      cases on with
      | true => exact h4.elim
      | false => rw [hk] at h4; cases h4.2.2
    | tell b =>
      have hlt : ∀ e : State, e.told = s.told ++ [b] → lastTold e = b := fun e he => lastTold_snoc s b _ rfl e he
      cases on <;> cases b <;> first
        | exact h4.elim
        | (refine ⟨⟨h1, h2, h3, ⟨h4.1, hlt _ rfl, ?_⟩, h5⟩, hc⟩; first | exact h4.2.2 | (rw [h4.2.2]; rfl))
  | setOne on hs _ =>
    rw [hs] at h2 h3 h4
    exact ⟨⟨h1, h2, h3, ⟨h4.2.1, h4.2.2⟩, h5⟩, hc⟩
  | set on hs _ =>
    rw [hs] at h2 h3 h4
    exact ⟨⟨h1, h2, h3, ⟨h4.2.1, h4.2.2⟩, h5⟩, hc⟩
  | close => exact absurd rfl hl
  | closing c c' s1 hcl _ => rw [hc] at hcl; cases hcl
  | closingEnd c s1 hcl _ => rw [hc] at hcl; cases hcl
  | closed hcl => rw [hc] at hcl; cases hcl
  | over b t hb ht =>
    have e1 := over_step hb
    have e2 := over_step ht
    exact ⟨⟨by rw [e1.len, e2.len, h1], cover_over e1 h2, cover_over e2 h3, h4, h5⟩, hc⟩
  | take i _ => exact ⟨⟨h1, h2, h3, h4, h5⟩, hc⟩
  | log i n _ => exact ⟨⟨h1, h2, h3, h4, h5⟩, hc⟩
  | finish i g _ _ _ => exact ⟨⟨h1, h2, h3, h4, h5⟩, hc⟩

/-- The state of the topics at each point of the toggle's goroutine. -/
def Topics (s : State) : Tog → Prop
  | .fresh => TopicOff s.block ∧ TopicOff s.tx
  | .idle => if s.enabled then TopicOn s.block ∧ TopicOn s.tx else TopicOff s.block ∧ TopicOff s.tx
  | .returned => if s.enabled then TopicOn s.block ∧ TopicOn s.tx else TopicOff s.block ∧ TopicOff s.tx
  | .setting on => if on then TopicOn s.block ∧ TopicOn s.tx else TopicOff s.block ∧ TopicOff s.tx
  | .calling true .start => TopicOff s.block ∧ TopicOff s.tx
  | .calling true _ => TopicOn s.block ∧ TopicOn s.tx
  | .calling false .stopBlock => TopicLaunched s.block ∧ TopicLaunched s.tx
  | .calling false .stopTx => TopicOff s.block ∧ TopicLaunched s.tx
  | .calling false _ => TopicOff s.block ∧ TopicOff s.tx

/-- Steps of a topic that preserve all that `Topics` speaks of. -/
theorem topics_keep {s s' : State} (hg : s'.tog = s.tog) (he : s'.enabled = s.enabled)
    (a1 : TopicOn s.block → TopicOn s'.block) (a2 : TopicOff s.block → TopicOff s'.block)
    (a3 : TopicLaunched s.block → TopicLaunched s'.block)
    (b1 : TopicOn s.tx → TopicOn s'.tx) (b2 : TopicOff s.tx → TopicOff s'.tx)
    (b3 : TopicLaunched s.tx → TopicLaunched s'.tx) (h : Topics s s.tog) : Topics s' s'.tog := by
  rw [hg]
  cases hc : s.tog with
  | fresh => rw [hc] at h; exact ⟨a2 h.1, b2 h.2⟩
  | idle =>
    rw [hc] at h; simp only [Topics, he] at h ⊢
    split at h
    · rename_i hx; rw [if_pos hx]; exact ⟨a1 h.1, b1 h.2⟩
    · rename_i hx; rw [if_neg hx]; exact ⟨a2 h.1, b2 h.2⟩
  | returned =>
    rw [hc] at h; simp only [Topics, he] at h ⊢
    split at h
    · rename_i hx; rw [if_pos hx]; exact ⟨a1 h.1, b1 h.2⟩
    · rename_i hx; rw [if_neg hx]; exact ⟨a2 h.1, b2 h.2⟩
  | setting on =>
    rw [hc] at h
    cases on with
    | true => exact ⟨a1 h.1, b1 h.2⟩
    | false => exact ⟨a2 h.1, b2 h.2⟩
  | calling on c =>
    rw [hc] at h
    cases on <;> cases c <;> first
      | exact ⟨a1 h.1, b1 h.2⟩
      | exact ⟨a2 h.1, b2 h.2⟩
      | exact ⟨a3 h.1, b3 h.2⟩
      | exact ⟨a2 h.1, b3 h.2⟩

theorem topics_step {cap : GossipRun.Cap} {o : ToggleOpts} {s s' : State} {l : Label} (hb : Base s) (hc : s.close = .notYet)
    (hl : l ≠ .close) (hp : Prompt s l) (h : step cap o s l = some s') (hT : Topics s s.tog) : Topics s' s'.tog := by
  obtain ⟨_, ht⟩ := step_tr h
  have h4 := hb.phase
  cases ht with
  | block l b ho hb =>
    have := own_step ho hb
    exact topics_keep (s := s) rfl rfl (on_own this) (off_own this) (launched_own this) id id id hT
  | tx l t ho hb =>
    have := own_step ho hb
    exact topics_keep (s := s) rfl rfl id id id (on_own this) (off_own this) (launched_own this) hT
  | beginOn hf _ => rw [hf] at hT; exact hT
  | beginOff hf _ => rw [hf] at hT; exact hT
  | beginLoop hf _ =>
    rw [hf] at hT h4
    simp only [Topics, h4.1]
    exact hT
  | head t => exact topics_keep (s := s) rfl rfl id id id id id id hT
  | tickSame c n hi => exact hT
  | tickOn c n hi he =>
    rw [hi] at hT
    simp only [Topics, he] at hT
    exact hT
  | tickOff c n hi he => exact hp c n rfl
  | leave hi _ => rw [hi] at hT; exact hT
  | toggle on c c' s1 htog ha =>
    rw [htog] at h4 hT
    cases ha with
    | start b t hb ht =>
      cases on with
      | false => exact h4.elim
      | true => exact ⟨on_start hb, on_start ht⟩
    | stopBlock b hb =>
      cases on with
      | true => exact h4.elim
      | false => exact ⟨off_stop (stop_step hb) hT.1, hT.2⟩
    | stopTx t ht =>
      cases on with
      | true => exact h4.elim
      | false => exact ⟨hT.1, off_stop (stop_step ht) hT.2⟩
    | checkSome k hk =>
      cases on with
      | true => exact h4.elim
      | false => exact hT
    | checkNone hk =>
      cases on with
      | true => exact h4.elim
      | false => exact hT
    | cancel k b t hk hb ht =>
      cases on with
      | true => exact h4.elim
      | false => exact ⟨off_cancel (cancel_step hb) hT.1, off_cancel (cancel_step ht) hT.2⟩
    | clear =>
      cases on with
      | true => exact h4.elim
      | false => exact hT
  | toggleEnd on c s1 htog ha =>
    rw [htog] at h4 hT
    cases ha with
    | panic hk =>
      cases on with
      | true => exact h4.elim
      | false => exact hT
    | tell b =>
      cases on <;> cases b <;> first
        | exact h4.elim
        | exact hT
  | setOne on hs _ => rw [hs] at hT; exact hT
  | set on hs _ => rw [hs] at hT; exact hT
  | close => exact absurd rfl hl
  | closing c c' s1 hcl _ => rw [hc] at hcl; cases hcl
  | closingEnd c s1 hcl _ => rw [hc] at hcl; cases hcl
  | closed hcl => rw [hc] at hcl; cases hcl
  | over b t hb ht =>
    have e1 := over_step hb
    have e2 := over_step ht
    exact topics_keep (s := s) rfl rfl (on_over e1) (off_over e1) (launched_over e1) (on_over e2) (off_over e2) (launched_over e2) hT
  | take i _ => exact topics_keep (s := s) rfl rfl id id id id id id hT
  | log i n _ => exact topics_keep (s := s) rfl rfl id id id id id id hT
  | finish i g _ _ _ => exact topics_keep (s := s) rfl rfl id id id id id id hT

/-! ### Closing the node after the toggle has returned -/

/-- The state of the topics at each point of `Close`. -/
def CloseTopics (s : State) : Call → Prop
  | .stopBlock => TopicLaunched s.block ∧ TopicLaunched s.tx
  | .stopTx => TopicOff s.block ∧ TopicLaunched s.tx
  | .check => TopicOff s.block ∧ TopicOff s.tx
  | .cancel => (TopicOff s.block ∧ TopicOff s.tx) ∧ s.ptr.isSome = true
  | .clear => TopicOff s.block ∧ TopicOff s.tx
  | .tell false => (TopicOff s.block ∧ TopicOff s.tx) ∧ s.ptr = none
  | _ => False

def closeClearing : Call → Bool
  | .clear => true
  | _ => false

structure Ended (cl : Bool) (s : State) : Prop where
  tog : s.tog = .returned
  len : s.tx.gens.length = s.block.gens.length
  coverB : Cover s.ptr cl s.block
  coverT : Cover s.ptr cl s.tx
  alive : s.panicked = false

def Closing (s : State) : Closer → Prop
  | .notYet => Base s
  | .calling c => Ended (closeClearing c) s ∧ CloseTopics s c
  | .host => Ended false s ∧ (TopicOff s.block ∧ TopicOff s.tx) ∧ s.ptr = none ∧ lastTold s = false
  | .closed => Ended false s ∧ (TopicOff s.block ∧ TopicOff s.tx) ∧ s.ptr = none ∧ lastTold s = false

theorem closeTopics_keep {s s' : State} (he : s'.ptr = s.ptr)
    (a2 : TopicOff s.block → TopicOff s'.block) (a3 : TopicLaunched s.block → TopicLaunched s'.block)
    (b2 : TopicOff s.tx → TopicOff s'.tx) (b3 : TopicLaunched s.tx → TopicLaunched s'.tx) {c : Call}
    (h : CloseTopics s c) : CloseTopics s' c := by
  cases c with
  | start => exact h
  | stopBlock => exact ⟨a3 h.1, b3 h.2⟩
  | stopTx => exact ⟨a2 h.1, b3 h.2⟩
  | check => exact ⟨a2 h.1, b2 h.2⟩
  | cancel => exact ⟨⟨a2 h.1.1, b2 h.1.2⟩, he ▸ h.2⟩
  | clear => exact ⟨a2 h.1, b2 h.2⟩
  | tell on => cases on with
    | true => exact h
    | false => exact ⟨⟨a2 h.1.1, b2 h.1.2⟩, he ▸ h.2⟩

theorem closing_keep {s s' : State} (hg : s'.close = s.close) (hn : s.close ≠ .notYet)
    (ht : s'.tog = s.tog) (hl : s.tx.gens.length = s.block.gens.length → s'.tx.gens.length = s'.block.gens.length)
    (hk : s'.ptr = s.ptr) (hp : s'.panicked = s.panicked) (htold : s'.told = s.told)
    (c1 : ∀ k cl, Cover k cl s.block → Cover k cl s'.block) (c2 : ∀ k cl, Cover k cl s.tx → Cover k cl s'.tx)
    (a2 : TopicOff s.block → TopicOff s'.block) (a3 : TopicLaunched s.block → TopicLaunched s'.block)
    (b2 : TopicOff s.tx → TopicOff s'.tx) (b3 : TopicLaunched s.tx → TopicLaunched s'.tx)
    (h : Closing s s.close) : Closing s' s'.close := by
  have hT : lastTold s' = lastTold s := by unfold lastTold; rw [htold]
  have hE : ∀ cl, Ended cl s → Ended cl s' := fun cl h =>
    ⟨ht.trans h.tog, hl h.len, hk ▸ c1 _ _ h.coverB, hk ▸ c2 _ _ h.coverT, hp.trans h.alive⟩
  rw [hg]
  cases hc : s.close with
  | notYet => exact absurd hc hn
  | calling c => rw [hc] at h; exact ⟨hE _ h.1, closeTopics_keep hk a2 a3 b2 b3 h.2⟩
  | host => rw [hc] at h; exact ⟨hE _ h.1, ⟨a2 h.2.1.1, b2 h.2.1.2⟩, hk.trans h.2.2.1, hT.trans h.2.2.2⟩
  | closed => rw [hc] at h; exact ⟨hE _ h.1, ⟨a2 h.2.1.1, b2 h.2.1.2⟩, hk.trans h.2.2.1, hT.trans h.2.2.2⟩

theorem closing_returned {s : State} (hn : s.close ≠ .notYet) (h : Closing s s.close) : s.tog = .returned := by
  cases hc : s.close with
  | notYet => exact absurd hc hn
  | calling c => rw [hc] at h; exact h.1.tog
  | host => rw [hc] at h; exact h.1.tog
  | closed => rw [hc] at h; exact h.1.tog

theorem closing_step {cap : GossipRun.Cap} {o : ToggleOpts} {s s' : State} {l : Label} (hC : Closing s s.close)
    (hl : CloseLast s l) (h : step cap o s l = some s') : Closing s' s'.close := by
  by_cases hn : s.close = .notYet
  · by_cases hcl : l = .close
    · subst hcl
      obtain ⟨_, ht⟩ := step_tr h
      cases ht
      rw [hn] at hC
      obtain ⟨h1, h2, h3, h4, h5⟩ := hC
      obtain ⟨a, b⟩ := hl rfl
      rw [a] at h2 h3
      exact ⟨⟨a, h1, h2, h3, h5⟩, b⟩
    · rw [hn] at hC
      obtain ⟨a, b⟩ := base_step hC hn hcl h
      rw [b]; exact a
  · have hret := closing_returned hn hC
    have same : ∀ k cl (t : GossipRun.State), Cover k cl t → Cover k cl t := fun _ _ _ h => h
    obtain ⟨_, ht⟩ := step_tr h
    cases ht with
    | block l b ho hb =>
      have := own_step ho hb
      exact closing_keep (s := s) rfl hn rfl (fun h => h.trans this.len.symm) rfl rfl rfl (fun _ _ => cover_own this)
        (fun _ _ h => h) (off_own this) (launched_own this) id id hC
    | tx l t ho hb =>
      have := own_step ho hb
      exact closing_keep (s := s) rfl hn rfl (fun h => this.len.trans h) rfl rfl rfl (fun _ _ h => h)
        (fun _ _ => cover_own this) id id (off_own this) (launched_own this) hC
    | beginOn hf _ => rw [hret] at hf; cases hf
    | beginOff hf _ => rw [hret] at hf; cases hf
    | beginLoop hf _ => rw [hret] at hf; cases hf
    | head t => exact closing_keep (s := s) rfl hn rfl id rfl rfl rfl (fun _ _ h => h) (fun _ _ h => h) id id id id hC
    | tickSame c n hi => rw [hret] at hi; cases hi
    | tickOn c n hi he => rw [hret] at hi; cases hi
    | tickOff c n hi he => rw [hret] at hi; cases hi
    | leave hi _ => rw [hret] at hi; cases hi
    | toggle on c c' s1 htog ha => rw [hret] at htog; cases htog
    | toggleEnd on c s1 htog ha => rw [hret] at htog; cases htog
    | setOne on hs _ => rw [hret] at hs; cases hs
    | set on hs _ => rw [hret] at hs; cases hs
    | close hc => exact absurd hc hn
    | closing c c' s1 hcl ha =>
      rw [hcl] at hC
      obtain ⟨⟨h0, h1, h2, h3, h5⟩, hT⟩ := hC
      cases ha with
      | start b t hb ht => exact hT.elim
      | stopBlock b hb =>
        have := stop_step hb
        exact ⟨⟨h0, h1.trans this.len.symm, cover_stop this h2, h3, h5⟩, off_stop this hT.1, hT.2⟩
      | stopTx t ht =>
        have := stop_step ht
        exact ⟨⟨h0, this.len.trans h1, h2, cover_stop this h3, h5⟩, hT.1, off_stop this hT.2⟩
      | checkSome k hk => exact ⟨⟨h0, h1, h2, h3, h5⟩, hT, by rw [hk]; rfl⟩
      | checkNone hk => exact ⟨⟨h0, h1, h2, h3, h5⟩, hT, hk⟩
      | cancel k b t hk hb ht =>
        have e1 := cancel_step hb
        have e2 := cancel_step ht
        rw [hk] at h2 h3
        refine ⟨⟨h0, by rw [e1.len, e2.len, h1], ?_, ?_, h5⟩, off_cancel e1 hT.1.1, off_cancel e2 hT.1.2⟩
        · dsimp only; rw [hk]; exact cover_cancel e1 h2
        · dsimp only; rw [hk]; exact cover_cancel e2 h3
      | clear => exact ⟨⟨h0, h1, cover_clear h2, cover_clear h3, h5⟩, hT, rfl⟩
    | closingEnd c s1 hcl ha =>
      rw [hcl] at hC
      obtain ⟨⟨h0, h1, h2, h3, h5⟩, hT⟩ := hC
      cases ha with
      | panic hk => have := hT.2; rw [hk] at this; cases this
      | tell b =>
        cases b with
        | true => exact hT.elim
        | false => exact ⟨⟨h0, h1, h2, h3, h5⟩, hT.1, hT.2, lastTold_snoc s false _ rfl _ rfl⟩
    | closed hcl =>
      rw [hcl] at hC
      obtain ⟨⟨h0, h1, h2, h3, h5⟩, hT⟩ := hC
      exact ⟨⟨h0, h1, h2, h3, h5⟩, hT⟩
    | over b t hb ht =>
      have e1 := over_step hb
      have e2 := over_step ht
      exact closing_keep (s := s) rfl hn rfl (fun h => by dsimp only; rw [e1.len, e2.len, h]) rfl rfl rfl (fun _ _ => cover_over e1)
        (fun _ _ => cover_over e2) (off_over e1) (launched_over e1) (off_over e2) (launched_over e2) hC
    | take i _ => exact closing_keep (s := s) rfl hn rfl id rfl rfl rfl (fun _ _ h => h) (fun _ _ h => h) id id id id hC
    | log i n _ => exact closing_keep (s := s) rfl hn rfl id rfl rfl rfl (fun _ _ h => h) (fun _ _ h => h) id id id id hC
    | finish i g _ _ _ => exact closing_keep (s := s) rfl hn rfl id rfl rfl rfl (fun _ _ h => h) (fun _ _ h => h) id id id id hC

/-! ### Statistics -/

/-- The blocks counted: logged, taken but not yet logged, still in the counter. -/
def blockSum (s : State) : Nat := (s.logged.map fun p => p.1.toNat).sum + (s.stats.map inHand).sum + s.blocks.toNat

def trxSum (s : State) : Nat := (s.logged.map fun p => p.2.toNat).sum + s.trxs.toNat

/-- Everything is counted, but for overflows of the counter. -/
def Counted (s : State) : Prop :=
  (∃ k, blockSum s + k * 2 ^ 32 = s.block.published.length) ∧ ∃ k, trxSum s + k * 2 ^ 32 = s.tx.published.length

theorem published_step {cap : GossipRun.Cap} {t t' : GossipRun.State} {l : GossipRun.Label}
    (h : GossipRun.step cap t l = some t') :
    t'.published.length = t.published.length ∨ (t'.published.length = t.published.length + 1 ∧ ∃ x, l = .publish x) := by
  obtain ⟨_, he⟩ := GossipRun.step_eff h
  cases he <;> first | exact Or.inl rfl | skip
  · exact Or.inr ⟨by simp, _, rfl⟩

theorem u32_succ (n : UInt32) : ∃ k, (n + 1).toNat + k * 2 ^ 32 = n.toNat + 1 := by
  have := n.toNat_lt
  by_cases h : n.toNat + 1 < 2 ^ 32
  · refine ⟨0, ?_⟩
    rw [UInt32.toNat_add]; simp; omega
  · refine ⟨1, ?_⟩
    rw [UInt32.toNat_add]; simp; omega

theorem sum_set {xs : List Stat} {i : Nat} {x y : Stat} (h : xs[i]? = some x) :
    ((xs.set i y).map inHand).sum + inHand x = (xs.map inHand).sum + inHand y := by
  induction xs generalizing i with
  | nil => cases h
  | cons a xs ih =>
    cases i with
    | zero => cases h; simp; omega
    | succ i =>
      have := ih (i := i) h
      simp only [List.set_cons_succ, List.map_cons, List.sum_cons]
      omega

theorem counted_act {cap : GossipRun.Cap} {s s' : State} {c : Call} {n : Option Call} (ha : Act cap s c s' n)
    (h : Counted s) : Counted s' := by
  cases ha with
  | start b t hb ht =>
    have e1 : b.published.length = s.block.published.length := (published_step hb).resolve_right fun h => by
      obtain ⟨_, x, hx⟩ := h; cases hx
    have e2 : t.published.length = s.tx.published.length := (published_step ht).resolve_right fun h => by
      obtain ⟨_, x, hx⟩ := h; cases hx
    obtain ⟨⟨k, h1⟩, h2⟩ := h
    refine ⟨⟨k, ?_⟩, ?_⟩
    · show blockSum _ + _ = b.published.length
      rw [e1, ← h1]; simp [blockSum, inHand]
    · show ∃ k, _ = t.published.length
      rw [e2]; exact h2
  | stopBlock b hb =>
    have e1 : b.published.length = s.block.published.length := (published_step hb).resolve_right fun h => by
      obtain ⟨_, x, hx⟩ := h; cases hx
    exact ⟨by show ∃ k, _ = b.published.length; rw [e1]; exact h.1, h.2⟩
  | stopTx t ht =>
    have e2 : t.published.length = s.tx.published.length := (published_step ht).resolve_right fun h => by
      obtain ⟨_, x, hx⟩ := h; cases hx
    exact ⟨h.1, by show ∃ k, _ = t.published.length; rw [e2]; exact h.2⟩
  | checkSome k hk => exact h
  | checkNone hk => exact h
  | panic hk => exact h
  | cancel k b t hk hb ht =>
    have e1 : b.published.length = s.block.published.length := (published_step hb).resolve_right fun h => by
      obtain ⟨_, x, hx⟩ := h; cases hx
    have e2 : t.published.length = s.tx.published.length := (published_step ht).resolve_right fun h => by
      obtain ⟨_, x, hx⟩ := h; cases hx
    exact ⟨by show ∃ k, _ = b.published.length; rw [e1]; exact h.1,
      by show ∃ k, _ = t.published.length; rw [e2]; exact h.2⟩
  | clear => exact h
  | tell on => exact h

theorem counted_step {cap : GossipRun.Cap} {o : ToggleOpts} {s s' : State} {l : Label} (h : Counted s)
    (hs : step cap o s l = some s') : Counted s' := by
  obtain ⟨_, ht⟩ := step_tr hs
  cases ht with
  | block l b ho hb =>
    refine ⟨?_, h.2⟩
    obtain ⟨⟨k, h1⟩, _⟩ := h
    rcases published_step hb with e | ⟨e, _⟩
    · refine ⟨k, ?_⟩
      show blockSum _ + _ = b.published.length
      rw [if_pos e, e]; exact h1
    · obtain ⟨k', hk'⟩ := u32_succ s.blocks
      refine ⟨k + k', ?_⟩
      show blockSum _ + _ = b.published.length
      rw [if_neg (by omega), e, ← h1]
      simp only [blockSum] at *
      omega
  | tx l t ho hb =>
    refine ⟨h.1, ?_⟩
    obtain ⟨_, k, h1⟩ := h
    rcases published_step hb with e | ⟨e, _⟩
    · refine ⟨k, ?_⟩
      show trxSum _ + _ = t.published.length
      rw [if_pos e, e]; exact h1
    · obtain ⟨k', hk'⟩ := u32_succ s.trxs
      refine ⟨k + k', ?_⟩
      show trxSum _ + _ = t.published.length
      rw [if_neg (by omega), e, ← h1]
      simp only [trxSum] at *
      omega
  | beginOn hf _ => exact h
  | beginOff hf _ => exact h
  | beginLoop hf _ => exact h
  | head t => exact h
  | tickSame c n hi => exact h
  | tickOn c n hi he => exact h
  | tickOff c n hi he => exact h
  | leave hi _ => exact h
  | toggle on c c' s1 htog ha => exact (counted_act ha h :)
  | toggleEnd on c s1 htog ha => exact (counted_act ha h :)
  | setOne on hs _ => exact h
  | set on hs _ => exact h
  | close hc => exact h
  | closing c c' s1 hcl ha => exact (counted_act ha h :)
  | closingEnd c s1 hcl ha => exact (counted_act ha h :)
  | closed hcl => exact h
  | over b t hb ht =>
    have e1 : b.published.length = s.block.published.length := (published_step hb).resolve_right fun h => by
      obtain ⟨_, x, hx⟩ := h; cases hx
    have e2 : t.published.length = s.tx.published.length := (published_step ht).resolve_right fun h => by
      obtain ⟨_, x, hx⟩ := h; cases hx
    exact ⟨by show ∃ k, _ = b.published.length; rw [e1]; exact h.1,
      by show ∃ k, _ = t.published.length; rw [e2]; exact h.2⟩
  | take i hi =>
    refine ⟨?_, h.2⟩
    obtain ⟨⟨k, h1⟩, _⟩ := h
    refine ⟨k, ?_⟩
    have := sum_set (y := .took s.blocks) hi
    simp only [inHand] at this
    have e : UInt32.toNat 0 = 0 := rfl
    simp only [blockSum] at *
    omega
  | log i n hi =>
    obtain ⟨⟨k, h1⟩, k', h2⟩ := h
    have hsum := sum_set (y := .sleeping) hi
    simp only [inHand] at hsum
    by_cases hc : n > 0 ∨ s.trxs > 0
    · rw [if_pos hc]
      refine ⟨⟨k, ?_⟩, k', ?_⟩
      · simp only [blockSum, List.map_append, List.sum_append, List.map_cons, List.map_nil, List.sum_cons, List.sum_nil] at *
        omega
      · simp only [trxSum, List.map_append, List.sum_append, List.map_cons, List.map_nil, List.sum_cons, List.sum_nil] at *
        simp
        omega
    · rw [if_neg hc]
      have hn : n.toNat = 0 := by
        by_contra hne
        exact hc (Or.inl (by rw [gt_iff_lt, UInt32.lt_iff_toNat_lt]; simp; omega))
      have ht : s.trxs.toNat = 0 := by
        by_contra hne
        exact hc (Or.inr (by rw [gt_iff_lt, UInt32.lt_iff_toNat_lt]; simp; omega))
      refine ⟨⟨k, ?_⟩, k', ?_⟩
      · simp only [blockSum] at *
        omega
      · simp only [trxSum] at *
        simp
        omega
  | finish i g hi _ _ =>
    refine ⟨?_, h.2⟩
    obtain ⟨⟨k, h1⟩, _⟩ := h
    refine ⟨k, ?_⟩
    have := sum_set (y := .returned) hi
    simp only [blockSum, inHand] at *
    omega

/-! ### Switching comes to an end -/

/-- What is needed for the next statement to be possible. -/
structure Sound (t : GossipRun.State) : Prop where
  cur : t.enabled = true → ∃ i, t.current = some i ∧ i < t.gens.length

theorem sound_step {cap : GossipRun.Cap} {t t' : GossipRun.State} {l : GossipRun.Label} (h : Sound t)
    (hs : GossipRun.step cap t l = some t') : Sound t' ∧ t.gens.length ≤ t'.gens.length := by
  obtain ⟨_, he⟩ := GossipRun.step_eff hs
  have put : ∀ (j : Nat) (x : GossipRun.Gen), Sound (t.put j x) ∧ t.gens.length ≤ (t.put j x).gens.length := fun j x =>
    ⟨⟨fun h' => by obtain ⟨i, a, b⟩ := h.cur h'; exact ⟨i, a, by simpa [GossipRun.State.put] using b⟩⟩, by simp [GossipRun.State.put]⟩
  cases he with
  | start =>
    refine ⟨⟨fun h' => ?_⟩, by simp⟩
    obtain ⟨i, a, b⟩ := h.cur h'
    exact ⟨i, a, by simp; omega⟩
  | launchIdle i g hg hp he => exact put _ _
  | launch i g hg hp he =>
    exact ⟨⟨fun _ => ⟨i, rfl, by simpa [GossipRun.State.put] using (List.getElem?_eq_some_iff.1 hg).1⟩⟩, by simp [GossipRun.State.put]⟩
  | stop i g hg he => exact ⟨⟨fun h' => (by cases h')⟩, by simp [GossipRun.State.put]⟩
  | stopIdle he => exact ⟨h, Nat.le_refl _⟩
  | cancel i g hg he => exact ⟨⟨(put i _).1.cur⟩, (put i _).2⟩
  | cancelIdle he => exact ⟨h, Nat.le_refl _⟩
  | cancelGen i g hg => exact put _ _
  | over =>
    refine ⟨⟨fun h' => ?_⟩, by simp⟩
    obtain ⟨i, a, b⟩ := h.cur h'
    exact ⟨i, a, by simpa using b⟩
  | publish x he => exact ⟨⟨h.cur⟩, Nat.le_refl _⟩
  | publishIdle x he => exact ⟨h, Nat.le_refl _⟩
  | message i g hg hp => exact put _ _
  | failed i g hg hp hd => exact put _ _
  | crash i g hg hp hr => exact ⟨⟨h.cur⟩, Nat.le_refl _⟩
  | send i g hg hp hr => exact put _ _
  | quit i g hg hp hd => exact put _ _
  | receive i g hg hp hd => exact put _ _
  | leave i g hg hp hd => exact put _ _

structure Fit (s : State) : Prop where
  block : Sound s.block
  tx : Sound s.tx
  ptrB : ∀ i, s.ptr = some i → i < s.block.gens.length
  len : s.tx.gens.length = s.block.gens.length

theorem same_len {cap : GossipRun.Cap} {t t' : GossipRun.State} {l : GossipRun.Label} (hl : l ≠ .start)
    (hs : GossipRun.step cap t l = some t') : t'.gens.length = t.gens.length := by
  obtain ⟨_, he⟩ := GossipRun.step_eff hs
  cases he <;> first | exact absurd rfl hl | simp [GossipRun.State.put]

theorem fit_act {cap : GossipRun.Cap} {s s' : State} {c : Call} {n : Option Call} (h : Fit s) (ha : Act cap s c s' n) : Fit s' := by
  obtain ⟨h1, h2, h3, h4⟩ := h
  cases ha with
  | start b t hb ht =>
    obtain ⟨g, hg, _⟩ := start_step hb
    obtain ⟨g', hg', _⟩ := start_step ht
    exact ⟨(sound_step h1 hb).1, (sound_step h2 ht).1, fun i hi => by cases hi; simp [hg], by simp [hg, hg', h4]⟩
  | stopBlock b hb =>
    have e := same_len (by simp) hb
    exact ⟨(sound_step h1 hb).1, h2, fun i hi => by dsimp only; rw [e]; exact h3 i hi, h4.trans e.symm⟩
  | stopTx t ht =>
    have e := same_len (by simp) ht
    exact ⟨h1, (sound_step h2 ht).1, h3, e.trans h4⟩
  | checkSome k hk => exact ⟨h1, h2, h3, h4⟩
  | checkNone hk => exact ⟨h1, h2, h3, h4⟩
  | panic hk => exact ⟨h1, h2, h3, h4⟩
  | cancel k b t hk hb ht =>
    have e1 := same_len (by simp) hb
    have e2 := same_len (by simp) ht
    exact ⟨(sound_step h1 hb).1, (sound_step h2 ht).1, fun i hi => by dsimp only; rw [e1]; exact h3 i hi, by
      dsimp only; rw [e1, e2, h4]⟩
  | clear => exact ⟨h1, h2, fun i hi => (by cases hi), h4⟩
  | tell on => exact ⟨h1, h2, h3, h4⟩

theorem fit_step {cap : GossipRun.Cap} {o : ToggleOpts} {s s' : State} {l : Label} (h : Fit s)
    (hs : step cap o s l = some s') : Fit s' := by
  obtain ⟨_, ht⟩ := step_tr hs
  have h0 := h
  obtain ⟨h1, h2, h3, h4⟩ := h
  cases ht with
  | block l b ho hb =>
    have e := (own_step ho hb).len
    exact ⟨(sound_step h1 hb).1, h2, fun i hi => by dsimp only; rw [e]; exact h3 i hi, h4.trans e.symm⟩
  | tx l t ho hb =>
    have e := (own_step ho hb).len
    exact ⟨h1, (sound_step h2 hb).1, h3, e.trans h4⟩
  | toggle on c c' s1 htog ha => obtain ⟨a, b, c, d⟩ := fit_act h0 ha; exact ⟨a, b, c, d⟩
  | toggleEnd on c s1 htog ha => obtain ⟨a, b, c, d⟩ := fit_act h0 ha; exact ⟨a, b, c, d⟩
  | closing c c' s1 hcl ha => obtain ⟨a, b, c, d⟩ := fit_act h0 ha; exact ⟨a, b, c, d⟩
  | closingEnd c s1 hcl ha => obtain ⟨a, b, c, d⟩ := fit_act h0 ha; exact ⟨a, b, c, d⟩
  | over b t hb ht =>
    have e1 := same_len (by simp) hb
    have e2 := same_len (by simp) ht
    exact ⟨(sound_step h1 hb).1, (sound_step h2 ht).1, fun i hi => by dsimp only; rw [e1]; exact h3 i hi, by
      dsimp only; rw [e1, e2, h4]⟩
  | _ => exact ⟨h1, h2, h3, h4⟩

/-- Nothing keeps a call of `EnableGossip` from its next statement. -/
theorem act_some {cap : GossipRun.Cap} {s : State} (h : Fit s) (hd : s.dead = false) (c : Call) : (act cap s c).isSome = true := by
  simp only [State.dead, Bool.or_eq_false_iff] at hd
  obtain ⟨⟨hd1, hd2⟩, _⟩ := hd
  have stop : ∀ {t : GossipRun.State}, Sound t → t.crashed = false → ∃ t', GossipRun.step cap t .stop = some t' := by
    intro t ht hc
    cases he : t.enabled with
    | false => exact ⟨t, by simp [GossipRun.step, hc, he]⟩
    | true =>
      obtain ⟨i, a, b⟩ := ht.cur he
      simp [GossipRun.step, hc, he, a, List.getElem?_eq_getElem b]
  cases c with
  | start => simp [act, GossipRun.step, hd1, hd2]
  | stopBlock => obtain ⟨t, ht⟩ := stop h.block hd1; simp [act, ht]
  | stopTx => obtain ⟨t, ht⟩ := stop h.tx hd2; simp [act, ht]
  | check => simp [act]
  | cancel =>
    simp only [act]
    cases hp : s.ptr with
    | none => rfl
    | some i =>
      have b1 := h.ptrB i hp
      have b2 : i < s.tx.gens.length := h.len ▸ b1
      simp [GossipRun.step, hd1, hd2, List.getElem?_eq_getElem b1, List.getElem?_eq_getElem b2]
  | clear => rfl
  | tell on => rfl

def callRank : Call → Nat
  | .stopBlock => 6
  | .stopTx => 5
  | .check => 4
  | .cancel => 3
  | .clear => 2
  | .start => 2
  | .tell _ => 1

/-- How many steps the toggle still has to make. -/
def togRank : Tog → Nat
  | .calling _ c => callRank c + 1
  | .setting _ => 1
  | _ => 0

theorem act_rank {cap : GossipRun.Cap} {s s' : State} {c c' : Call} (ha : Act cap s c s' (some c')) : callRank c' < callRank c := by
  cases ha <;> simp [callRank]

end Serv
end KP2P

import Mathlib.Algebra.BigOperators.Group.Finset.Basic
import Mathlib.Algebra.Order.BigOperators.Group.Finset
import Verif.Props.GossipServ
/-!
# C112, C113, C114, continued: what the toggle decides, the end of the node's context, statistics are reported
-/

namespace KP2P
open KP2P.Serv KP2P.Spec.Serv

/-! ### C112: the service does what the toggle decides -/

namespace Serv

theorem run_snoc {cap : GossipRun.Cap} {o : ToggleOpts} {l : Label} {s2 : State} : ∀ (ls : List Label) (s : State),
    run cap o s (ls ++ [l]) = some s2 → ∃ s1, run cap o s ls = some s1 ∧ step cap o s1 l = some s2
  | [], s, h => by
    simp only [List.nil_append, run] at h
    refine ⟨s, rfl, ?_⟩
    split at h
    · rename_i t ht; rw [ht]; exact h
    · cases h
  | x :: xs, s, h => by
    simp only [List.cons_append, run] at h ⊢
    split at h
    · rename_i t ht
      obtain ⟨s1, h1, h2⟩ := run_snoc xs t h
      exact ⟨s1, h1, h2⟩
    · cases h

theorem reach_run {cap : GossipRun.Cap} {o : ToggleOpts} {P : State → Label → Prop} {ls : List Label} (hP : ∀ s, ∀ l ∈ ls, P s l) :
    ∀ s, run cap o init ls = some s → Reach cap o P s := by
  induction ls using List.reverseRecOn with
  | nil => intro s h; cases h; exact .init
  | append_singleton ls l ih =>
    intro s h
    obtain ⟨s1, h1, h2⟩ := run_snoc ls _ h
    exact .step (ih (fun s l' h => hP s l' (by simp [h])) s1 h1) (hP s1 l (by simp)) h2

/-- How the toggle of `Model/GossipToggle`, in which a switch is one step, stands to the service. -/
def Agrees (o : ToggleOpts) (T : Toggle) (enabled : Bool) (told : List Bool) : Tog → Prop
  | .fresh => enabled = false ∧ told = [] ∧ T.enabled = (Toggle.new.start o).enabled ∧ T.cmds = (Toggle.new.start o).cmds ∧
      T.looping = (Toggle.new.start o).looping
  | .idle => T.enabled = enabled ∧ T.cmds = told ∧ T.looping = true ∧ o.alwaysEnable = false
  | .returned => T.enabled = enabled ∧ T.cmds = told
  | .calling on (.tell b) => on = b ∧ T.enabled = on ∧ T.cmds = told ++ [on] ∧ T.looping = !o.alwaysEnable
  | .calling on _ => T.enabled = on ∧ T.cmds = told ++ [on] ∧ T.looping = !o.alwaysEnable
  | .setting on => T.enabled = on ∧ T.cmds = told ∧ T.looping = !o.alwaysEnable

theorem tick_any (T : Toggle) (l : List Bool) (b : Bool) (c n : Int) :
    (Toggle.tick ⟨T.enabled, T.headTime, l, b⟩ c n).enabled = (T.tick c n).enabled := by
  unfold Toggle.tick; dsimp only
  repeat' split
  all_goals rfl

theorem tick_cmds (T : Toggle) (c n : Int) :
    (T.tick c n).cmds = (if (T.tick c n).enabled = T.enabled then T.cmds else T.cmds ++ [(T.tick c n).enabled]) ∧
    (T.tick c n).looping = T.looping ∧ (T.tick c n).headTime = T.headTime := by
  unfold Toggle.tick
  repeat' split
  all_goals simp_all

theorem agrees_step {cap : GossipRun.Cap} {o : ToggleOpts} {s s' : State} {l : Label} {T : Toggle} (hb : Base s) (hc : s.close = .notYet)
    (hl : NotClosing s l) (hs : step cap o s l = some s') (hh : T.headTime = s.headTime) (hA : Agrees o T s.enabled s.told s.tog) :
    ((heard l).elim T T.step).headTime = s'.headTime ∧ Agrees o ((heard l).elim T T.step) s'.enabled s'.told s'.tog := by
  obtain ⟨_, ht⟩ := step_tr hs
  cases ht with
  | block l b ho hb => exact ⟨hh, hA⟩
  | tx l t ho hb => exact ⟨hh, hA⟩
  | beginOn hf he =>
    rw [hf] at hA
    obtain ⟨h1, h2, h3, h4, h5⟩ := hA
    simp only [Toggle.start, he, if_true, Toggle.new] at h3 h4 h5
    refine ⟨hh, h3, ?_, ?_⟩
    · show T.cmds = s.told ++ [true]; rw [h4, h2]
    · show T.looping = _; rw [h5, he]; rfl
  | beginOff hf he hd =>
    rw [hf] at hA
    obtain ⟨h1, h2, h3, h4, h5⟩ := hA
    simp only [Toggle.start, he, hd, if_true, Toggle.new, Bool.false_eq_true, if_false] at h3 h4 h5
    refine ⟨hh, h3, ?_⟩
    show T.cmds = s.told; rw [h4, h2]
  | beginLoop hf he hd =>
    rw [hf] at hA
    obtain ⟨h1, h2, h3, h4, h5⟩ := hA
    simp only [Toggle.start, he, hd, Toggle.new, Bool.false_eq_true, if_false] at h3 h4 h5
    refine ⟨hh, ?_, ?_, h5, he⟩
    · show T.enabled = s.enabled; rw [h3, h1]
    · show T.cmds = s.told; rw [h4, h2]
  | head t =>
    refine ⟨rfl, ?_⟩
    show Agrees o { T with headTime := t } s.enabled s.told s.tog
    cases htog : s.tog with
    | calling on c => rw [htog] at hA; cases c <;> exact hA
    | _ => rw [htog] at hA; exact hA
  | tickSame c n hi hw =>
    rw [hi] at hA
    obtain ⟨h1, h2, h3, h4⟩ := hA
    rw [← h1, ← hh, tick_any] at hw
    obtain ⟨e1, e2, e3⟩ := tick_cmds T c n
    have hstep : (heard (.tick c n)).elim T T.step = T.tick c n := by simp [heard, Toggle.step, h3]
    rw [hstep, hi]
    rw [if_pos hw] at e1
    exact ⟨e3.trans hh, hw.trans h1, e1.trans h2, e2.trans h3, h4⟩
  | tickOn c n hi he hw =>
    rw [hi] at hA
    obtain ⟨h1, h2, h3, h4⟩ := hA
    rw [← h1] at he
    rw [← h1, ← hh, tick_any] at hw
    obtain ⟨e1, e2, e3⟩ := tick_cmds T c n
    have hstep : (heard (.tick c n)).elim T T.step = T.tick c n := by simp [heard, Toggle.step, h3]
    rw [hstep]
    rw [hw, he, if_neg (by simp)] at e1
    refine ⟨e3.trans hh, hw, e1.trans ?_, e2.trans (h3.trans ?_)⟩
    · rw [h2]
    · rw [h4]; rfl
  | tickOff c n hi he hw =>
    rw [hi] at hA
    obtain ⟨h1, h2, h3, h4⟩ := hA
    rw [← h1] at he
    rw [← h1, ← hh, tick_any] at hw
    obtain ⟨e1, e2, e3⟩ := tick_cmds T c n
    have hstep : (heard (.tick c n)).elim T T.step = T.tick c n := by simp [heard, Toggle.step, h3]
    rw [hstep]
    rw [hw, he, if_neg (by simp)] at e1
    refine ⟨e3.trans hh, hw, e1.trans ?_, e2.trans (h3.trans ?_)⟩
    · rw [h2]
    · rw [h4]; rfl
  | leave hi _ => rw [hi] at hA; exact ⟨hh, hA.1, hA.2.1⟩
  | toggle on c c' s1 htog ha =>
    rw [htog] at hA
    have hp := hb.phase
    rw [htog] at hp
    cases ha with
    | start b t h1 h2 =>
      cases on with
      | true => exact ⟨hh, rfl, hA⟩
      | false => exact hp.elim
    | stopBlock b h1 => exact ⟨hh, hA⟩
    | stopTx b h1 => exact ⟨hh, hA⟩
    | checkSome k hk => exact ⟨hh, hA⟩
    | checkNone hk =>
      cases on with
      | true => exact hp.elim
      | false => exact ⟨hh, rfl, hA⟩
    | cancel k b t h1 h2 h3 => exact ⟨hh, hA⟩
    | clear =>
      cases on with
      | true => exact hp.elim
      | false => exact ⟨hh, rfl, hA⟩
  | toggleEnd on c s1 htog ha =>
    rw [htog] at hA
    have hp := hb.phase
    rw [htog] at hp
    cases ha with
    | panic hk =>
      cases on with
      | true => exact hp.elim
      | false => have := hp.2.2; rw [hk] at this; cases this
    | tell b =>
      obtain ⟨rfl, h⟩ := hA
      exact ⟨hh, h⟩
  | setOne on hset he => rw [hset] at hA; exact ⟨hh, hA.1, hA.2.1⟩
  | set on hset he => rw [hset] at hA; exact ⟨hh, hA.1, hA.2.1, by have := hA.2.2; rw [he] at this; exact this, he⟩
  | close hcl => exact absurd rfl hl
  | closing c c' s1 hcl ha => rw [hc] at hcl; cases hcl
  | closingEnd c s1 hcl ha => rw [hc] at hcl; cases hcl
  | closed hcl => rw [hc] at hcl; cases hcl
  | over b t hb ht => exact ⟨hh, hA⟩
  | take i hi => exact ⟨hh, hA⟩
  | log i n hi => exact ⟨hh, hA⟩
  | finish i g hi hg _ => exact ⟨hh, hA⟩

theorem agrees_run {cap : GossipRun.Cap} {o : ToggleOpts} {ls : List Label} (hl : .close ∉ ls) :
    ∀ s, run cap o init ls = some s → (Toggle.run o (ls.filterMap heard)).headTime = s.headTime ∧
      Agrees o (Toggle.run o (ls.filterMap heard)) s.enabled s.told s.tog := by
  induction ls using List.reverseRecOn with
  | nil =>
    intro s h; cases h
    refine ⟨?_, rfl, rfl, rfl, rfl, rfl⟩
    show (Toggle.new.start o).headTime = 0
    unfold Toggle.start; repeat' split
    all_goals rfl
  | append_singleton ls l ih =>
    intro s h
    obtain ⟨s1, h1, h2⟩ := run_snoc ls _ h
    have hl' : .close ∉ ls := fun e => hl (by simp [e])
    have hr := reach_base (fun _ _ h => h) (reach_run (P := NotClosing) (fun s l hm e => hl' (e ▸ hm)) s1 h1)
    obtain ⟨i1, i2⟩ := ih hl' s1 h1
    have := agrees_step hr.1 hr.2 (fun e => hl (by simp [e])) h2 i1 i2
    have hfold : Toggle.run o ((ls ++ [l]).filterMap heard) =
        (heard l).elim (Toggle.run o (ls.filterMap heard)) (Toggle.run o (ls.filterMap heard)).step := by
      rw [List.filterMap_append]
      cases hh : heard l with
      | none => simp [hh]
      | some e => simp [hh, Toggle.run, List.foldl_append]
    rw [hfold]
    exact this

end Serv

/-- C112. The service does what the toggle decides: once the toggle has begun and whenever it is at rest, the answer of the
status RPC is the toggle's last decision, and the statuses broadcast so far are the switches it decided upon, in order
(C32 and C33 say which these are). -/
theorem C112_follows_toggle {cap : GossipRun.Cap} {o : ToggleOpts} {ls : List Serv.Label} {s : Serv.State}
    (h : Serv.run cap o Serv.init ls = some s) (hl : .close ∉ ls) (hr : AtRest s) (hf : s.tog ≠ .fresh) :
    s.enabled = (Toggle.run o (ls.filterMap heard)).enabled ∧ s.told = (Toggle.run o (ls.filterMap heard)).cmds := by
  have hA := (agrees_run hl s h).2
  rcases hr with hr | hr | hr
  · exact absurd hr hf
  · rw [hr] at hA; exact ⟨hA.1.symm, hA.2.1.symm⟩
  · rw [hr] at hA; exact ⟨hA.1.symm, hA.2.symm⟩

/-- C112. The toggle's goroutine goes on checking until the node's context ends, unless gossip is forced on or off. -/
theorem C112_toggle_stays {cap : GossipRun.Cap} {o : ToggleOpts} {P : Serv.State → Serv.Label → Prop} {s : Serv.State}
    (h : Reach cap o P s) (hr : s.tog = .returned) : s.block.over = true ∨ o.alwaysEnable = true ∨ o.alwaysDisable = true := by
  revert hr
  induction h with
  | init => intro h; cases h
  | @step s s' l _ _ hs ih =>
    obtain ⟨_, ht⟩ := step_tr hs
    have keep : ∀ {c : Serv.Call} {s1 : Serv.State} {n : Option Serv.Call}, Act cap s c s1 n →
        s1.tog = s.tog ∧ s1.block.over = s.block.over := by
      intro c s1 n ha
      cases ha with
      | start b t h1 h2 => exact ⟨rfl, by obtain ⟨_, he⟩ := GossipRun.step_eff h1; cases he; rfl⟩
      | stopBlock b h1 => exact ⟨rfl, (stop_step h1).over⟩
      | cancel k b t _ h1 _ => exact ⟨rfl, (cancel_step h1).over⟩
      | _ => exact ⟨rfl, rfl⟩
    cases ht with
    | block l b ho hb => intro h; rw [(own_step ho hb).over]; exact ih h
    | beginOff hf _ hd => exact fun _ => Or.inr (Or.inr hd)
    | beginOn hf _ => intro h; cases h
    | beginLoop hf _ => intro h; cases h
    | tickOn c n hi he => intro h; cases h
    | tickOff c n hi he => intro h; cases h
    | leave hi ho => exact fun _ => Or.inl ho
    | toggle on c c' s1 htog ha => intro h; cases h
    | toggleEnd on c s1 htog ha => intro h; cases h
    | setOne on hs he => exact fun _ => Or.inr (Or.inl he)
    | set on hs he => intro h; cases h
    | closing c c' s1 hcl ha =>
      intro h
      show s1.block.over = true ∨ _
      rw [(keep ha).2]; exact ih ((keep ha).1 ▸ h)
    | closingEnd c s1 hcl ha =>
      intro h
      show s1.block.over = true ∨ _
      rw [(keep ha).2]; exact ih ((keep ha).1 ▸ h)
    | over b t hb ht => intro _; left; obtain ⟨_, he⟩ := GossipRun.step_eff hb; cases he; rfl
    | _ => exact ih

private def followRun : List Serv.Label :=
  [.head 100000, .begin, .tick 1 0, .toggle, .toggle, .set, .tx (.launch 0), .block (.launch 0), .head 5, .tick 0 0, .toggle,
    .toggle, .toggle, .toggle, .toggle, .toggle, .set, .tick 3 0, .toggle, .block (.launch 1), .toggle, .set, .over, .leave]

example : ∃ s, Serv.run 8 {} Serv.init followRun = some s ∧ .close ∉ followRun ∧ AtRest s ∧ s.tog ≠ .fresh ∧
    s.told = [true, false, true] := by
  have : ∃ s, Serv.run 8 {} Serv.init followRun = some s ∧ s.tog = .returned ∧ s.told = [true, false, true] :=
    ⟨_, rfl, rfl, rfl⟩
  obtain ⟨s, hs, h1, h2⟩ := this
  exact ⟨s, hs, by decide, Or.inr (Or.inr h1), by rw [h1]; simp, h2⟩

/-! ### C113: the end of the node's context -/

namespace Serv

/-- The two topics know of the end of the node's context, and once it has ended no context made for gossip goes on. -/
def CtxEnd (s : State) : Prop :=
  s.tx.over = s.block.over ∧ (s.block.over = true → AllCancelled s)

theorem ctxEnd_own {t t' : GossipRun.State} (h : Own t t') (ht : ∀ (i : Nat) g, t.gens[i]? = some g → g.cancelled = true) :
    ∀ (i : Nat) g, t'.gens[i]? = some g → g.cancelled = true := by
  intro i g' hi
  obtain ⟨g, hg, hc, _⟩ := h.gen i g' hi
  rw [hc]; exact ht i g hg

theorem ctxEnd_start {cap : GossipRun.Cap} {t t' : GossipRun.State} (h : GossipRun.step cap t .start = some t') :
    t'.over = t.over ∧ (t.over = true → (∀ (i : Nat) g, t.gens[i]? = some g → g.cancelled = true) →
      ∀ (i : Nat) g, t'.gens[i]? = some g → g.cancelled = true) := by
  obtain ⟨_, he⟩ := GossipRun.step_eff h
  cases he
  refine ⟨rfl, fun ho ht i g hi => ?_⟩
  dsimp only at hi
  rw [List.getElem?_append] at hi
  split at hi
  · exact ht i g hi
  · rw [List.getElem?_singleton] at hi
    split at hi
    · cases hi; exact ho
    · cases hi

theorem ctxEnd_act {cap : GossipRun.Cap} {s s' : State} {c : Call} {n : Option Call} (ha : Act cap s c s' n) (h : CtxEnd s) :
    CtxEnd s' := by
  obtain ⟨h1, h2⟩ := h
  cases ha with
  | start b t hb ht =>
    obtain ⟨a1, a2⟩ := ctxEnd_start hb
    obtain ⟨b1, b2⟩ := ctxEnd_start ht
    refine ⟨b1.trans (h1.trans a1.symm), fun ho => ?_⟩
    have ho' : s.block.over = true := a1.symm.trans ho
    exact ⟨a2 ho' (h2 ho').1, b2 (h1.trans ho') (h2 ho').2⟩
  | stopBlock b hb =>
    have hS := stop_step hb
    refine ⟨h1.trans hS.over.symm, fun ho => ?_⟩
    obtain ⟨x, y⟩ := h2 (hS.over.symm.trans ho)
    refine ⟨fun i g' hi => ?_, y⟩
    obtain ⟨g, hg, hc, _⟩ := hS.gen i g' hi
    rw [hc]; exact x i g hg
  | stopTx t ht =>
    have hS := stop_step ht
    refine ⟨hS.over.trans h1, fun ho => ?_⟩
    obtain ⟨x, y⟩ := h2 ho
    refine ⟨x, fun i g' hi => ?_⟩
    obtain ⟨g, hg, hc, _⟩ := hS.gen i g' hi
    rw [hc]; exact y i g hg
  | checkSome k hk => exact ⟨h1, h2⟩
  | checkNone hk => exact ⟨h1, h2⟩
  | panic hk => exact ⟨h1, h2⟩
  | cancel k b t hk hb ht =>
    have hB := cancel_step hb
    have hT := cancel_step ht
    refine ⟨hT.over.trans (h1.trans hB.over.symm), fun ho => ?_⟩
    obtain ⟨x, y⟩ := h2 (hB.over.symm.trans ho)
    refine ⟨fun i g' hi => ?_, fun i g' hi => ?_⟩
    · rcases hB.gen i g' hi with ⟨_, hc⟩ | ⟨_, g, hg, hc⟩
      · exact hc
      · rw [hc]; exact x i g hg
    · rcases hT.gen i g' hi with ⟨_, hc⟩ | ⟨_, g, hg, hc⟩
      · exact hc
      · rw [hc]; exact y i g hg
  | clear => exact ⟨h1, h2⟩
  | tell on => exact ⟨h1, h2⟩

theorem ctxEnd_step {cap : GossipRun.Cap} {o : ToggleOpts} {s s' : State} {l : Label} (h : CtxEnd s)
    (hs : step cap o s l = some s') : CtxEnd s' := by
  obtain ⟨_, ht⟩ := step_tr hs
  cases ht with
  | block l b ho hb =>
    have hO := own_step ho hb
    exact ⟨h.1.trans hO.over.symm, fun e => ⟨ctxEnd_own hO (h.2 (hO.over.symm.trans e)).1, (h.2 (hO.over.symm.trans e)).2⟩⟩
  | tx l t ho hb =>
    have hO := own_step ho hb
    exact ⟨hO.over.trans h.1, fun e => ⟨(h.2 e).1, ctxEnd_own hO (h.2 e).2⟩⟩
  | toggle on c c' s1 htog ha => exact (ctxEnd_act ha h :)
  | toggleEnd on c s1 htog ha => exact (ctxEnd_act ha h :)
  | closing c c' s1 hcl ha => exact (ctxEnd_act ha h :)
  | closingEnd c s1 hcl ha => exact (ctxEnd_act ha h :)
  | over b t hb ht =>
    refine ⟨?_, fun _ => ⟨fun i g hi => ((over_step hb).gen i g hi).1, fun i g hi => ((over_step ht).gen i g hi).1⟩⟩
    obtain ⟨_, e1⟩ := GossipRun.step_eff hb
    obtain ⟨_, e2⟩ := GossipRun.step_eff ht
    cases e1; cases e2; rfl
  | _ => exact h

end Serv

/-- C113. The end of the node's context ends every context made for gossip, and those that are made later have ended from the
beginning, whatever the toggle and `Close` do. -/
theorem C113_context_end {cap : GossipRun.Cap} {o : ToggleOpts} {P : Serv.State → Serv.Label → Prop} {s : Serv.State}
    (h : Reach cap o P s) (ho : s.block.over = true) : s.tx.over = true ∧ AllCancelled s := by
  have key : CtxEnd s := by
    clear ho
    induction h with
    | init => exact ⟨rfl, fun h => by cases h⟩
    | step _ _ hs ih => exact ctxEnd_step ih hs
  exact ⟨key.1.trans ho, key.2 ho⟩

/-- Switched on once more after the end of the context, by a check that was under way. -/
private def lateOnRun : List Serv.Label := [.begin, .head 100000, .tick 1 0, .over, .toggle, .toggle, .set, .leave]

example : ∃ s, Reach 8 {} (fun _ _ => True) s ∧ s.block.over = true ∧ s.block.gens.length = 1 ∧ s.tx.gens.length = 1 := by
  have : ∃ s, checked 8 {} (fun _ _ => true) Serv.init lateOnRun = some s ∧ s.block.over = true ∧ s.block.gens.length = 1 ∧
      s.tx.gens.length = 1 := ⟨_, rfl, rfl, rfl, rfl⟩
  obtain ⟨s, hs, h1⟩ := this
  exact ⟨s, reach_checked (fun _ _ _ => trivial) _ _ _ .init hs, h1⟩

/-! ### C114: the statistics are reported -/

namespace Serv

/-- One statistics goroutine for each start, and it stays as long as its context. -/
structure Reporters (s : State) : Prop where
  len : s.stats.length = s.block.gens.length
  live : ∀ (i : Nat) (g : GossipRun.Gen), s.stats[i]? = some .returned → s.block.gens[i]? = some g → g.cancelled = true

theorem reporters_block {s s' : State} (h : Reporters s) (hst : s'.stats = s.stats)
    (hlen : s'.block.gens.length = s.block.gens.length)
    (hg : ∀ (i : Nat) (g' : GossipRun.Gen), s'.block.gens[i]? = some g' →
      g'.cancelled = true ∨ ∃ g, s.block.gens[i]? = some g ∧ g'.cancelled = g.cancelled) : Reporters s' := by
  refine ⟨by rw [hst, hlen]; exact h.len, fun i g' hi hg' => ?_⟩
  rw [hst] at hi
  rcases hg i g' hg' with e | ⟨g, e, hc⟩
  · exact e
  · rw [hc]; exact h.live i g hi e

theorem reporters_act {cap : GossipRun.Cap} {s s' : State} {c : Call} {n : Option Call} (ha : Act cap s c s' n) (h : Reporters s) :
    Reporters s' := by
  cases ha with
  | start b t hb ht =>
    obtain ⟨g0, hg0, _⟩ := start_step hb
    refine ⟨?_, fun i g hi hg => ?_⟩
    · show (s.stats ++ [_]).length = b.gens.length
      rw [hg0]; simp [h.len]
    · dsimp only at hi hg
      rw [hg0] at hg
      rw [List.getElem?_append] at hi hg
      rw [h.len] at hi
      split at hi
      · rename_i hlt
        rw [if_pos hlt] at hg
        exact h.live i g hi hg
      · rw [List.getElem?_singleton] at hi
        split at hi <;> cases hi
  | stopBlock b hb =>
    have hS := stop_step hb
    exact reporters_block h rfl hS.len fun i g' hi => Or.inr (by obtain ⟨g, hg, hc, _⟩ := hS.gen i g' hi; exact ⟨g, hg, hc⟩)
  | stopTx t ht => exact ⟨h.len, h.live⟩
  | checkSome k hk => exact h
  | checkNone hk => exact h
  | panic hk => exact ⟨h.len, h.live⟩
  | cancel k b t hk hb ht =>
    have hB := cancel_step hb
    exact reporters_block h rfl hB.len fun i g' hi => (hB.gen i g' hi).imp (fun e => e.2) (fun e => e.2)
  | clear => exact ⟨h.len, h.live⟩
  | tell on => exact ⟨h.len, h.live⟩

theorem reporters_set {s s' : State} {i : Nat} {x : Stat} (h : Reporters s) (hst : s'.stats = s.stats.set i x)
    (hb : s'.block = s.block) (hx : x = .returned → ∀ g : GossipRun.Gen, s.block.gens[i]? = some g → g.cancelled = true) :
    Reporters s' := by
  refine ⟨by rw [hst, hb, List.length_set]; exact h.len, fun j g hj hg => ?_⟩
  rw [hb] at hg
  rw [hst, List.getElem?_set] at hj
  split at hj
  · rename_i e
    split at hj
    · cases hj; subst e; exact hx rfl g hg
    · cases hj
  · exact h.live j g hj hg

theorem reporters_step {cap : GossipRun.Cap} {o : ToggleOpts} {s s' : State} {l : Label} (h : Reporters s)
    (hs : step cap o s l = some s') : Reporters s' := by
  obtain ⟨_, ht⟩ := step_tr hs
  cases ht with
  | block l b ho hb =>
    have hO := own_step ho hb
    exact reporters_block h rfl hO.len fun i g' hi => Or.inr (by obtain ⟨g, hg, hc, _⟩ := hO.gen i g' hi; exact ⟨g, hg, hc⟩)
  | toggle on c c' s1 htog ha => exact ⟨(reporters_act ha h).len, (reporters_act ha h).live⟩
  | toggleEnd on c s1 htog ha => exact ⟨(reporters_act ha h).len, (reporters_act ha h).live⟩
  | closing c c' s1 hcl ha => exact ⟨(reporters_act ha h).len, (reporters_act ha h).live⟩
  | closingEnd c s1 hcl ha => exact ⟨(reporters_act ha h).len, (reporters_act ha h).live⟩
  | over b t hb ht => exact reporters_block h rfl (over_step hb).len fun i g' hi => Or.inl ((over_step hb).gen i g' hi).1
  | take i hi => exact reporters_set h rfl rfl fun e => by cases e
  | log i n hi => exact reporters_set h rfl rfl fun e => by cases e
  | finish i g hi hg hc => exact reporters_set h rfl rfl fun _ g' hg' => by rw [hg] at hg'; cases hg'; exact hc
  | _ => exact ⟨h.len, h.live⟩

theorem reporters_init : Reporters init := ⟨rfl, fun i g h => by simp [init] at h⟩

end Serv

/-- C114. Every call of `StartGossip` has its statistics goroutine, and it does not end before its context does. -/
theorem C114_reporters {cap : GossipRun.Cap} {o : ToggleOpts} {P : Serv.State → Serv.Label → Prop} {s : Serv.State}
    (h : Reach cap o P s) :
    s.stats.length = s.block.gens.length ∧
    ∀ (i : Nat) (g : GossipRun.Gen), s.block.gens[i]? = some g → g.cancelled = false →
      ∃ x, s.stats[i]? = some x ∧ x ≠ .returned := by
  have key : Reporters s := by
    induction h with
    | init => exact reporters_init
    | step _ _ hs ih => exact reporters_step ih hs
  refine ⟨key.len, fun i g hg hc => ?_⟩
  have hi : i < s.stats.length := by rw [key.len]; exact (List.getElem?_eq_some_iff.1 hg).1
  refine ⟨s.stats[i], List.getElem?_eq_getElem hi, fun e => ?_⟩
  have := key.live i g (by rw [List.getElem?_eq_getElem hi, e]) hg
  rw [hc] at this; cases this

namespace Serv

theorem logged_act {cap : GossipRun.Cap} {s s' : State} {c : Call} {n : Option Call} (ha : Act cap s c s' n) :
    s'.logged = s.logged ∧ s'.blocks = s.blocks ∧ s'.trxs = s.trxs ∧
      (∀ (i : Nat) x, s.stats[i]? = some x → s'.stats[i]? = some x) := by
  cases ha with
  | start b t hb ht =>
    refine ⟨rfl, rfl, rfl, fun i x hi => ?_⟩
    show (s.stats ++ [_])[i]? = _
    rw [List.getElem?_append_left (List.getElem?_eq_some_iff.1 hi).1]; exact hi
  | _ => exact ⟨rfl, rfl, rfl, fun _ _ h => h⟩

/-- What a step does to one statistics goroutine and to the log. -/
theorem stat_step {cap : GossipRun.Cap} {o : ToggleOpts} {s s' : State} {l : Label} (hs : step cap o s l = some s') (i : Nat)
    (x : Stat) (hx : s.stats[i]? = some x) :
    (l = .take i ∧ x = .sleeping ∧ s'.stats[i]? = some (.took s.blocks) ∧ s'.blocks = 0) ∨
    (∃ n, l = .log i ∧ x = .took n ∧ s'.stats[i]? = some .sleeping) ∨
    (l = .finish i ∧ x = .sleeping ∧ (∃ g, s.block.gens[i]? = some g ∧ g.cancelled = true) ∧ s'.stats[i]? = some .returned) ∨
    (l ≠ .take i ∧ l ≠ .log i ∧ s'.stats[i]? = some x) := by
  obtain ⟨_, ht⟩ := step_tr hs
  have hlt := (List.getElem?_eq_some_iff.1 hx).1
  cases ht with
  | toggle on c c' s1 htog ha => exact Or.inr (Or.inr (Or.inr ⟨by simp, by simp, (logged_act ha).2.2.2 i x hx⟩))
  | toggleEnd on c s1 htog ha => exact Or.inr (Or.inr (Or.inr ⟨by simp, by simp, (logged_act ha).2.2.2 i x hx⟩))
  | closing c c' s1 htog ha => exact Or.inr (Or.inr (Or.inr ⟨by simp, by simp, (logged_act ha).2.2.2 i x hx⟩))
  | closingEnd c s1 htog ha => exact Or.inr (Or.inr (Or.inr ⟨by simp, by simp, (logged_act ha).2.2.2 i x hx⟩))
  | take j hj =>
    by_cases e : j = i
    · subst e
      rw [hj] at hx; cases hx
      exact Or.inl ⟨rfl, rfl, by simp [hlt], rfl⟩
    · refine Or.inr (Or.inr (Or.inr ⟨by simp [e], by simp, ?_⟩))
      dsimp only; rw [List.getElem?_set_ne e]; exact hx
  | log j n hj =>
    by_cases e : j = i
    · subst e
      rw [hj] at hx; cases hx
      exact Or.inr (Or.inl ⟨n, rfl, rfl, by simp [hlt]⟩)
    · refine Or.inr (Or.inr (Or.inr ⟨by simp, by simp [e], ?_⟩))
      dsimp only; rw [List.getElem?_set_ne e]; exact hx
  | finish j g hj hg hc =>
    by_cases e : j = i
    · subst e
      rw [hj] at hx; cases hx
      exact Or.inr (Or.inr (Or.inl ⟨rfl, rfl, ⟨g, hg, hc⟩, by simp [hlt]⟩))
    · refine Or.inr (Or.inr (Or.inr ⟨by simp, by simp, ?_⟩))
      dsimp only; rw [List.getElem?_set_ne e]; exact hx
  | _ => exact Or.inr (Or.inr (Or.inr ⟨by simp, by simp, hx⟩))

/-- The log only grows; a goroutine that logs adds what it holds. -/
theorem logged_step {cap : GossipRun.Cap} {o : ToggleOpts} {s s' : State} {l : Label} (hs : step cap o s l = some s') :
    blocksLogged s ≤ blocksLogged s' ∧ trxsLogged s ≤ trxsLogged s' ∧
    (∀ i n, l = .log i → s.stats[i]? = some (.took n) →
      blocksLogged s + n.toNat ≤ blocksLogged s' ∧ trxsLogged s + s.trxs.toNat ≤ trxsLogged s') := by
  obtain ⟨_, ht⟩ := step_tr hs
  have same : ∀ {s1 s2 : State}, s2.logged = s1.logged → blocksLogged s1 ≤ blocksLogged s2 ∧ trxsLogged s1 ≤ trxsLogged s2 := by
    intro s1 s2 h; simp only [blocksLogged, trxsLogged, h]; exact ⟨Nat.le_refl _, Nat.le_refl _⟩
  cases ht with
  | toggle on c c' s1 htog ha => exact ⟨(same (logged_act ha).1).1, (same (logged_act ha).1).2, fun i n h => by cases h⟩
  | toggleEnd on c s1 htog ha => exact ⟨(same (logged_act ha).1).1, (same (logged_act ha).1).2, fun i n h => by cases h⟩
  | closing c c' s1 htog ha => exact ⟨(same (logged_act ha).1).1, (same (logged_act ha).1).2, fun i n h => by cases h⟩
  | closingEnd c s1 htog ha => exact ⟨(same (logged_act ha).1).1, (same (logged_act ha).1).2, fun i n h => by cases h⟩
  | log j n hj =>
    have key : blocksLogged s + n.toNat ≤ (List.map (fun p : UInt32 × UInt32 => p.1.toNat)
        (if n > 0 ∨ s.trxs > 0 then s.logged ++ [(n, s.trxs)] else s.logged)).sum ∧
        trxsLogged s + s.trxs.toNat ≤ (List.map (fun p : UInt32 × UInt32 => p.2.toNat)
        (if n > 0 ∨ s.trxs > 0 then s.logged ++ [(n, s.trxs)] else s.logged)).sum := by
      split
      · simp [blocksLogged, trxsLogged]
      · rename_i hz
        have h1 : n.toNat = 0 := by
          by_contra h
          exact hz (Or.inl (UInt32.lt_iff_toNat_lt.2 (by simpa using Nat.pos_of_ne_zero h)))
        have h2 : s.trxs.toNat = 0 := by
          by_contra h
          exact hz (Or.inr (UInt32.lt_iff_toNat_lt.2 (by simpa using Nat.pos_of_ne_zero h)))
        simp only [blocksLogged, trxsLogged]
        omega
    refine ⟨Nat.le_trans (Nat.le_add_right _ _) key.1, Nat.le_trans (Nat.le_add_right _ _) key.2, fun i m hi hm => ?_⟩
    cases hi
    rw [hj] at hm; cases hm
    exact key
  | _ => exact ⟨Nat.le_refl _, Nat.le_refl _, fun i n h => by cases h⟩

theorem sum_range (l : List Stat) : (l.map inHand).sum = ∑ j ∈ Finset.range l.length, ((l[j]?).map inHand).getD 0 := by
  induction l with
  | nil => rfl
  | cons x l ih =>
    rw [List.map_cons, List.sum_cons, List.length_cons, Finset.sum_range_succ', ih, Nat.add_comm]
    simp

section
variable {cap : GossipRun.Cap} {o : ToggleOpts} {σ : Nat → State} {ev : Nat → Label}

/-- A goroutine that has taken its number logs it. -/
theorem took_logs (hst : ∀ n, step cap o (σ n) (ev n) = some (σ (n + 1))) {j : Nat} (hf : FairStat cap o σ ev j)
    {m : Nat} {n : UInt32} (hm : (σ m).stats[j]? = some (.took n)) :
    ∃ t, m ≤ t ∧ ev t = .log j ∧ ∀ u, m ≤ u → u ≤ t → (σ u).stats[j]? = some (.took n) := by
  by_contra hno
  have stay : ∀ d, (σ (m + d)).stats[j]? = some (.took n) ∧ ∀ u, m ≤ u → u ≤ m + d → (σ u).stats[j]? = some (.took n) := by
    intro d
    induction d with
    | zero => exact ⟨hm, fun u h1 h2 => by rw [show u = m by omega]; exact hm⟩
    | succ d ih =>
      have : (σ (m + (d + 1))).stats[j]? = some (.took n) := by
        rcases stat_step (hst (m + d)) j _ ih.1 with ⟨_, h, _⟩ | ⟨k, h1, h2, _⟩ | ⟨_, h, _⟩ | ⟨_, _, h⟩
        · cases h
        · exact absurd ⟨m + d, by omega, h1, ih.2⟩ hno
        · cases h
        · exact h
      refine ⟨this, fun u h1 h2 => ?_⟩
      by_cases hu : u ≤ m + d
      · exact ih.2 u h1 hu
      · rw [show u = m + (d + 1) by omega]; exact this
  obtain ⟨t, ht, he⟩ := hf m fun t ht => by
    obtain ⟨d, rfl⟩ := Nat.exists_eq_add_of_le ht
    have hd := (step_tr (hst (m + d))).1
    exact Or.inr (by simp [step, hd, (stay d).1])
  obtain ⟨d, rfl⟩ := Nat.exists_eq_add_of_le ht
  rcases he with he | he
  · rcases stat_step (hst (m + d)) j _ (stay d).1 with ⟨_, h, _⟩ | ⟨k, h1, _, _⟩ | ⟨_, h, _⟩ | ⟨h, _⟩
    · cases h
    · rw [he] at h1; cases h1
    · cases h
    · exact h he
  · exact hno ⟨m + d, ht, he, (stay d).2⟩

/-- What the goroutines hold at some time is logged after a while. -/
theorem held_logged (hst : ∀ n, step cap o (σ n) (ev n) = some (σ (n + 1))) (hf : ∀ j, FairStat cap o σ ev j) (m : Nat) :
    ∃ t, m ≤ t ∧ blocksLogged (σ m) + ((σ m).stats.map inHand).sum ≤ blocksLogged (σ t) := by
  classical
  -- what `j` holds at time `m`
  let a : Nat → Nat := fun j => (((σ m).stats[j]?).map inHand).getD 0
  -- `j` has logged since
  let F : Nat → Nat → Prop := fun d j => ∃ u, m ≤ u ∧ u < m + d ∧ ev u = .log j
  have stay : ∀ j n, (σ m).stats[j]? = some (.took n) → ∀ d, ¬ F d j → (σ (m + d)).stats[j]? = some (.took n) := by
    intro j n hj d
    induction d with
    | zero => intro _; exact hj
    | succ d ih =>
      intro hF
      have := ih fun ⟨u, h1, h2, h3⟩ => hF ⟨u, h1, by omega, h3⟩
      rcases stat_step (hst (m + d)) j _ this with ⟨_, h, _⟩ | ⟨k, h1, h2, _⟩ | ⟨_, h, _⟩ | ⟨_, _, h⟩
      · cases h
      · exact absurd ⟨m + d, by omega, by omega, h1⟩ hF
      · cases h
      · exact h
  have main : ∀ K d, blocksLogged (σ m) + ∑ j ∈ Finset.range K, (if F d j then a j else 0) ≤ blocksLogged (σ (m + d)) := by
    intro K d
    induction d with
    | zero =>
      have : ∀ j ∈ Finset.range K, (if F 0 j then a j else 0) = 0 := by
        intro j _
        rw [if_neg]; rintro ⟨u, h1, h2, _⟩; omega
      rw [Finset.sum_eq_zero this]; exact Nat.le_refl _
    | succ d ih =>
      obtain ⟨h1, _, h3⟩ := logged_step (hst (m + d))
      by_cases hl : ∃ j, ev (m + d) = .log j ∧ ¬ F d j
      · obtain ⟨j, hj, hn⟩ := hl
        have hF : ∀ i, F (d + 1) i → F d i ∨ i = j := by
          rintro i ⟨u, e1, e2, e3⟩
          by_cases hu : u < m + d
          · exact Or.inl ⟨u, e1, hu, e3⟩
          · rw [show u = m + d by omega, hj] at e3; cases e3; exact Or.inr rfl
        have hsum : ∑ i ∈ Finset.range K, (if F (d + 1) i then a i else 0) ≤
            ∑ i ∈ Finset.range K, (if F d i then a i else 0) + a j := by
          calc ∑ i ∈ Finset.range K, (if F (d + 1) i then a i else 0)
              ≤ ∑ i ∈ Finset.range K, ((if F d i then a i else 0) + (if i = j then a j else 0)) := by
                refine Finset.sum_le_sum fun i _ => ?_
                by_cases h : F (d + 1) i
                · rcases hF i h with h' | rfl
                  · simp [h, h']
                  · simp [h]
                · simp [h]
            _ = ∑ i ∈ Finset.range K, (if F d i then a i else 0) + ∑ i ∈ Finset.range K, (if i = j then a j else 0) :=
                Finset.sum_add_distrib
            _ ≤ _ := by
                refine Nat.add_le_add_left ?_ _
                rw [Finset.sum_ite_eq']; split
                · exact Nat.le_refl _
                · exact Nat.zero_le _
        have hgain : blocksLogged (σ (m + d)) + a j ≤ blocksLogged (σ (m + (d + 1))) := by
          cases hx : (σ m).stats[j]? with
          | none => simp only [a, hx, Option.map_none, Option.getD_none]; exact h1
          | some x =>
            cases x with
            | took n =>
              have := (h3 j n hj (stay j n hx d hn)).1
              simp only [a, hx, Option.map_some, Option.getD_some, inHand]; exact this
            | sleeping => simp only [a, hx, Option.map_some, Option.getD_some, inHand]; exact h1
            | returned => simp only [a, hx, Option.map_some, Option.getD_some, inHand]; exact h1
        omega
      · have hF : ∀ i, F (d + 1) i → F d i := by
          rintro i ⟨u, e1, e2, e3⟩
          by_cases hu : u < m + d
          · exact ⟨u, e1, hu, e3⟩
          · rw [show u = m + d by omega] at e3
            by_contra hn
            exact hl ⟨i, e3, hn⟩
        have hsum : ∑ i ∈ Finset.range K, (if F (d + 1) i then a i else 0) ≤ ∑ i ∈ Finset.range K, (if F d i then a i else 0) := by
          refine Finset.sum_le_sum fun i _ => ?_
          by_cases h : F (d + 1) i
          · simp [h, hF i h]
          · simp [h]
        have h1' : blocksLogged (σ (m + d)) ≤ blocksLogged (σ (m + (d + 1))) := h1
        omega
  have all : ∀ K, ∃ d, ∀ j, j < K → a j = 0 ∨ F d j := by
    intro K
    induction K with
    | zero => exact ⟨0, fun j hj => by omega⟩
    | succ K ih =>
      obtain ⟨d, hd⟩ := ih
      have : ∃ e, a K = 0 ∨ F e K := by
        cases hx : (σ m).stats[K]? with
        | none => exact ⟨0, Or.inl (by simp [a, hx])⟩
        | some x =>
          cases x with
          | took n =>
            obtain ⟨t, h1, h2, _⟩ := took_logs hst (hf K) hx
            exact ⟨t - m + 1, Or.inr ⟨t, h1, by omega, h2⟩⟩
          | sleeping => exact ⟨0, Or.inl (by simp [a, hx, inHand])⟩
          | returned => exact ⟨0, Or.inl (by simp [a, hx, inHand])⟩
      obtain ⟨e, he⟩ := this
      refine ⟨d + e, fun j hj => ?_⟩
      have mono : ∀ {x}, x ≤ d + e → F x j → F (d + e) j := fun hx ⟨u, h1, h2, h3⟩ => ⟨u, h1, by omega, h3⟩
      by_cases hjK : j = K
      · subst hjK; exact he.imp id (mono (by omega))
      · exact (hd j (by omega)).imp id (mono (by omega))
  obtain ⟨d, hd⟩ := all (σ m).stats.length
  refine ⟨m + d, by omega, ?_⟩
  have h := main (σ m).stats.length d
  rw [sum_range]
  refine Nat.le_trans (Nat.le_of_eq ?_) h
  congr 1
  refine Finset.sum_congr rfl fun j hj => ?_
  rcases hd j (Finset.mem_range.1 hj) with h0 | hF
  · show a j = _
    split
    · rfl
    · exact h0
  · rw [if_pos hF]

end

end Serv

private theorem exec_counted {cap : GossipRun.Cap} {o : ToggleOpts} {σ : Nat → Serv.State} {ev : Nat → Serv.Label}
    (h : Exec cap o σ ev) (n : Nat) : Reach cap o (fun _ _ => True) (σ n) := by
  induction n with
  | zero => rw [h.1]; exact .init
  | succ n ih =>
    rcases h.2 n with ⟨_, he⟩ | hs
    · rw [he]; exact ih
    · exact .step ih trivial hs

private theorem published_mono {cap : GossipRun.Cap} {o : ToggleOpts} {s s' : Serv.State} {l : Serv.Label}
    (hs : Serv.step cap o s l = some s') :
    s.block.published.length ≤ s'.block.published.length ∧ s.tx.published.length ≤ s'.tx.published.length := by
  obtain ⟨_, ht⟩ := step_tr hs
  have one : ∀ {t t' : GossipRun.State} {l : GossipRun.Label}, GossipRun.step cap t l = some t' →
      t.published.length ≤ t'.published.length := by
    intro t t' l h; rcases published_step h with e | ⟨e, _⟩ <;> omega
  have keep : ∀ {c : Serv.Call} {s1 : Serv.State} {n : Option Serv.Call}, Act cap s c s1 n →
      s.block.published.length ≤ s1.block.published.length ∧ s.tx.published.length ≤ s1.tx.published.length := by
    intro c s1 n ha
    cases ha with
    | start b t hb ht => exact ⟨one hb, one ht⟩
    | stopBlock b hb => exact ⟨one hb, Nat.le_refl _⟩
    | stopTx t ht => exact ⟨Nat.le_refl _, one ht⟩
    | cancel k b t _ hb ht => exact ⟨one hb, one ht⟩
    | _ => exact ⟨Nat.le_refl _, Nat.le_refl _⟩
  cases ht with
  | block l b ho hb => exact ⟨one hb, Nat.le_refl _⟩
  | tx l t ho hb => exact ⟨Nat.le_refl _, one hb⟩
  | over b t hb ht => exact ⟨one hb, one ht⟩
  | toggle on c c' s1 htog ha => exact (keep ha :)
  | toggleEnd on c s1 htog ha => exact (keep ha :)
  | closing c c' s1 hcl ha => exact (keep ha :)
  | closingEnd c s1 hcl ha => exact (keep ha :)
  | _ => exact ⟨Nat.le_refl _, Nat.le_refl _⟩

/-- C114. What is published is reported: if one of the contexts made for gossip does not end, the statistics goroutines get
their turns, and fewer than 2^32 blocks and transactions are published, then for every moment there is a later one by which
all blocks and transactions published until the first are in the log, unless the process panics. -/
theorem C114_reported {cap : GossipRun.Cap} {o : ToggleOpts} {σ : Nat → Serv.State} {ev : Nat → Serv.Label}
    (h : Exec cap o σ ev) (hf : ∀ j, FairStat cap o σ ev j) {n i : Nat}
    (hlive : ∀ m, n ≤ m → ∃ g, (σ m).block.gens[i]? = some g ∧ g.cancelled = false)
    (hfew : ∀ m, (σ m).block.published.length < 2 ^ 32 ∧ (σ m).tx.published.length < 2 ^ 32) :
    ∃ m, n ≤ m ∧ ((σ m).dead = true ∨
      ((σ n).block.published.length ≤ blocksLogged (σ m) ∧ (σ n).tx.published.length ≤ trxsLogged (σ m))) := by
  by_cases hdead : ∃ m, (σ m).dead = true
  · obtain ⟨m, hm⟩ := hdead
    have stay : ∀ d, (σ (m + d)).dead = true := by
      intro d
      induction d with
      | zero => exact hm
      | succ d ih =>
        rcases h.2 (m + d) with ⟨_, he⟩ | hs
        · exact (congrArg State.dead he).trans ih
        · have := (step_tr hs).1; rw [ih] at this; cases this
    exact ⟨m + n, by omega, Or.inl (stay n)⟩
  have hst : ∀ k, Serv.step cap o (σ k) (ev k) = some (σ (k + 1)) := fun k =>
    (h.2 k).resolve_left fun e => hdead ⟨k, e.1⟩
  have hpub : ∀ k d, (σ k).block.published.length ≤ (σ (k + d)).block.published.length ∧
      (σ k).tx.published.length ≤ (σ (k + d)).tx.published.length := by
    intro k d
    induction d with
    | zero => exact ⟨Nat.le_refl _, Nat.le_refl _⟩
    | succ d ih =>
      have := published_mono (hst (k + d))
      exact ⟨Nat.le_trans ih.1 this.1, Nat.le_trans ih.2 this.2⟩
  have hmono : ∀ k d, blocksLogged (σ k) ≤ blocksLogged (σ (k + d)) ∧ trxsLogged (σ k) ≤ trxsLogged (σ (k + d)) := by
    intro k d
    induction d with
    | zero => exact ⟨Nat.le_refl _, Nat.le_refl _⟩
    | succ d ih =>
      obtain ⟨h1, h2, _⟩ := logged_step (hst (k + d))
      exact ⟨Nat.le_trans ih.1 h1, Nat.le_trans ih.2 h2⟩
  have hrep : ∀ m, n ≤ m → (σ m).stats[i]? = some .sleeping ∨ ∃ x, (σ m).stats[i]? = some (.took x) := by
    intro m hm
    obtain ⟨g, hg, hc⟩ := hlive m hm
    obtain ⟨x, hx, hne⟩ := (C114_reporters (exec_counted h m)).2 i g hg hc
    cases x with
    | sleeping => exact Or.inl hx
    | took k => exact Or.inr ⟨k, hx⟩
    | returned => exact absurd rfl hne
  have hen : ∀ m, n ≤ m → (Serv.step cap o (σ m) (.take i)).isSome = true ∨ (Serv.step cap o (σ m) (.log i)).isSome = true := by
    intro m hm
    have hd := (step_tr (hst m)).1
    rcases hrep m hm with h | ⟨x, h⟩
    · exact Or.inl (by simp [Serv.step, hd, h])
    · exact Or.inr (by simp [Serv.step, hd, h])
  -- the goroutine takes the number of blocks, or logs and then takes it
  have htake : ∀ k, n ≤ k → ∃ m, k ≤ m ∧ (σ m).blocks = 0 ∧ ∃ x, (σ m).stats[i]? = some (.took x) := by
    intro k hk
    have sleep : ∀ k, n ≤ k → (σ k).stats[i]? = some .sleeping →
        ∃ m, k ≤ m ∧ (σ m).blocks = 0 ∧ ∃ x, (σ m).stats[i]? = some (.took x) := by
      intro k hk hsl
      by_contra hno
      have stay : ∀ d, (σ (k + d)).stats[i]? = some .sleeping := by
        intro d
        induction d with
        | zero => exact hsl
        | succ d ih =>
          rcases stat_step (hst (k + d)) i _ ih with ⟨_, _, h1, h2⟩ | ⟨x, _, h, _⟩ | ⟨_, _, ⟨g, hg, hc⟩, _⟩ | ⟨_, _, h⟩
          · exact absurd ⟨k + d + 1, by omega, h2, _, h1⟩ hno
          · cases h
          · obtain ⟨g', hg', hc'⟩ := hlive (k + d) (by omega)
            rw [hg] at hg'; cases hg'; rw [hc] at hc'; cases hc'
          · exact h
      obtain ⟨m, hm, he⟩ := hf i k fun m hm => hen m (by omega)
      obtain ⟨d, rfl⟩ := Nat.exists_eq_add_of_le hm
      rcases stat_step (hst (k + d)) i _ (stay d) with ⟨_, _, h1, h2⟩ | ⟨x, _, h, _⟩ | ⟨h, _⟩ | ⟨h1, h2, _⟩
      · exact hno ⟨k + d + 1, by omega, h2, _, h1⟩
      · cases h
      · rw [h] at he; rcases he with he | he <;> cases he
      · rcases he with he | he
        · exact h1 he
        · exact h2 he
    rcases hrep k hk with h | ⟨x, h⟩
    · exact sleep k hk h
    · obtain ⟨t, h1, h2, h3⟩ := took_logs hst (hf i) h
      have : (σ (t + 1)).stats[i]? = some .sleeping := by
        rcases stat_step (hst t) i _ (h3 t h1 (Nat.le_refl _)) with ⟨_, h, _⟩ | ⟨_, _, _, h⟩ | ⟨_, h, _⟩ | ⟨_, h, _⟩
        · cases h
        · exact h
        · cases h
        · exact absurd h2 h
      obtain ⟨m, hm, hr⟩ := sleep (t + 1) (by omega) this
      exact ⟨m, by omega, hr⟩
  obtain ⟨m, hm, hzero, x, hx⟩ := htake n (Nat.le_refl _)
  -- the transactions
  obtain ⟨t, ht1, ht2, ht3⟩ := took_logs hst (hf i) hx
  obtain ⟨_, _, hl⟩ := logged_step (hst t)
  have htx := (hl i x ht2 (ht3 t ht1 (Nat.le_refl _))).2
  have hexact := (C114_exact (exec_counted h t)).2.2.2 (hfew t).2
  -- the blocks
  obtain ⟨u, hu1, hu2⟩ := held_logged hst hf m
  have hblk := (C114_exact (exec_counted h m)).2.2.1 (hfew m).1
  rw [hzero] at hblk
  refine ⟨(t + 1) + u, by omega, Or.inr ⟨?_, ?_⟩⟩
  · have e1 := (hpub n (m - n)).1
    rw [show n + (m - n) = m by omega] at e1
    have e2 := (hmono u (t + 1)).1
    rw [show u + (t + 1) = t + 1 + u by omega] at e2
    have e3 : (σ m).block.published.length ≤ blocksLogged (σ u) := by
      rw [← hblk]; exact hu2
    omega
  · have e1 := (hpub n (t - n)).2
    rw [show n + (t - n) = t by omega] at e1
    have e2 := (hmono (t + 1) u).2
    have e3 : (σ t).tx.published.length = trxsLogged (σ t) + (σ t).trxs.toNat := hexact.symm
    omega

/-- C114. And a statistics goroutine whose context has ended ends, too. -/
theorem C114_reporter_ends {cap : GossipRun.Cap} {o : ToggleOpts} {σ : Nat → Serv.State} {ev : Nat → Serv.Label}
    (h : Exec cap o σ ev) {i : Nat} (hf : FairStat cap o σ ev i) (hfin : FairFinish cap o σ ev i) {n : Nat}
    (hc : ∀ m, n ≤ m → ∃ g, (σ m).block.gens[i]? = some g ∧ g.cancelled = true) :
    ∃ m, n ≤ m ∧ ((σ m).dead = true ∨ (σ m).stats[i]? = some .returned) := by
  by_contra hno
  have hd : ∀ m, n ≤ m → (σ m).dead = false := by
    intro m hm
    cases hd : (σ m).dead with
    | false => rfl
    | true => exact absurd ⟨m, hm, Or.inl hd⟩ hno
  let τ : Nat → Serv.State := fun k => σ (n + k)
  have hst : ∀ k, n ≤ k → Serv.step cap o (σ k) (ev k) = some (σ (k + 1)) := fun k hk =>
    (h.2 k).resolve_left fun e => by rw [hd k hk] at e; cases e.1
  have hst' : ∀ k, Serv.step cap o (τ k) (ev (n + k)) = some (τ (k + 1)) := fun k => hst (n + k) (by omega)
  have hf' : FairStat cap o τ (fun k => ev (n + k)) i := by
    intro k hk
    obtain ⟨m, hm, he⟩ := hf (n + k) fun m hm => by
      have := hk (m - n) (by omega)
      simp only [τ] at this
      rw [show n + (m - n) = m by omega] at this
      exact this
    exact ⟨m - n, by omega, by simp only; rw [show n + (m - n) = m by omega]; exact he⟩
  have hstat : ∀ m, n ≤ m → (σ m).stats[i]? = some .sleeping ∨ ∃ x, (σ m).stats[i]? = some (.took x) := by
    intro m hm
    obtain ⟨g, hg, _⟩ := hc m hm
    have hlen := (C114_reporters (exec_counted h m)).1
    have hi : i < (σ m).stats.length := by rw [hlen]; exact (List.getElem?_eq_some_iff.1 hg).1
    have hx := List.getElem?_eq_getElem hi
    generalize (σ m).stats[i] = x at hx
    cases x with
    | sleeping => exact Or.inl hx
    | took k => exact Or.inr ⟨k, hx⟩
    | returned => exact absurd ⟨m, hm, Or.inr hx⟩ hno
  obtain ⟨m, hm, he⟩ := hfin n fun m hm => by
    have now : ∀ k, n ≤ k → (σ k).stats[i]? = some .sleeping → (Serv.step cap o (σ k) (.finish i)).isSome = true := by
      intro k hk hs
      obtain ⟨g, hg, hgc⟩ := hc k hk
      simp [Serv.step, hd k hk, hs, hg, hgc]
    rcases hstat m hm with hs | ⟨x, hs⟩
    · exact ⟨m, Nat.le_refl _, now m hm hs⟩
    · have hs' : (τ (m - n)).stats[i]? = some (.took x) := by
        simp only [τ]; rw [show n + (m - n) = m by omega]; exact hs
      obtain ⟨t, h1, h2, h3⟩ := took_logs hst' hf' hs'
      refine ⟨n + t + 1, by omega, now _ (by omega) ?_⟩
      rcases stat_step (hst' t) i _ (h3 t h1 (Nat.le_refl _)) with ⟨_, h, _⟩ | ⟨_, _, _, h⟩ | ⟨_, h, _⟩ | ⟨_, h, _⟩
      · cases h
      · exact h
      · cases h
      · exact absurd h2 h
  rcases hstat m hm with hs | ⟨x, hs⟩
  · rcases stat_step (hst m hm) i _ hs with ⟨h, _⟩ | ⟨_, h, _⟩ | ⟨_, _, _, h⟩ | _
    · rw [he] at h; cases h
    · rw [he] at h; cases h
    · exact hno ⟨m + 1, by omega, Or.inr h⟩
    · have ht := (step_tr (hst m hm)).2
      generalize hs2 : σ (m + 1) = s2 at ht
      rw [he] at ht
      cases ht with
      | finish _ g hi hg hgc =>
        refine hno ⟨m + 1, by omega, Or.inr ?_⟩
        rw [hs2]; simp [(List.getElem?_eq_some_iff.1 hi).1]
  · have ht := (step_tr (hst m hm)).2
    generalize σ (m + 1) = s2 at ht
    rw [he] at ht
    cases ht with
    | finish _ g hi hg hgc => rw [hs] at hi; cases hi

private def repEvs : List Serv.Label :=
  [.begin, .toggle, .toggle, .set, .block (.launch 0), .tx (.launch 0), .block (.publish [1]), .take 0, .tx (.publish [2]),
    .log 0]
private def repEv (n : Nat) : Serv.Label := (repEvs[n]?).getD (if n % 2 = 0 then .take 0 else .log 0)
private def repSt : Nat → Serv.State
  | 0 => Serv.init
  | n + 1 => (Serv.step 8 { alwaysEnable := true } (repSt n) (repEv n)).getD Serv.init

private theorem repEv_tail (n : Nat) (h : 10 ≤ n) : repEv n = if n % 2 = 0 then .take 0 else .log 0 := by
  have hge : repEvs[n]? = none := List.getElem?_eq_none (by simp [repEvs]; omega)
  simp [repEv, hge]

private theorem repSt_end (d : Nat) : repSt (10 + 2 * d) = repSt 10 ∧ repSt (10 + 2 * d + 1) = repSt 11 := by
  induction d with
  | zero => exact ⟨rfl, rfl⟩
  | succ d ih =>
    have e1 : repEv (10 + 2 * d + 1) = .log 0 := by
      rw [repEv_tail _ (by omega), if_neg (by omega)]
    have e2 : repEv (10 + 2 * d + 2) = .take 0 := by
      rw [repEv_tail _ (by omega), if_pos (by omega)]
    have h1 : repSt (10 + 2 * d + 2) = repSt 10 := by
      show (Serv.step 8 _ (repSt (10 + 2 * d + 1)) (repEv (10 + 2 * d + 1))).getD Serv.init = _
      rw [e1, ih.2]; rfl
    refine ⟨by rw [show 10 + 2 * (d + 1) = 10 + 2 * d + 2 by omega]; exact h1, ?_⟩
    show (Serv.step 8 _ (repSt (10 + 2 * d + 2)) (repEv (10 + 2 * d + 2))).getD Serv.init = _
    rw [e2, h1]; rfl

private theorem repSt_ge (n : Nat) (h : 10 ≤ n) : (n % 2 = 0 ∧ repSt n = repSt 10) ∨ (n % 2 = 1 ∧ repSt n = repSt 11) := by
  rcases Nat.mod_two_eq_zero_or_one n with e | e
  · exact Or.inl ⟨e, by have := (repSt_end ((n - 10) / 2)).1; rwa [show 10 + 2 * ((n - 10) / 2) = n by omega] at this⟩
  · exact Or.inr ⟨e, by have := (repSt_end ((n - 11) / 2)).2; rwa [show 10 + 2 * ((n - 11) / 2) + 1 = n by omega] at this⟩

private theorem repSt_step (n : Nat) : Serv.step 8 { alwaysEnable := true } (repSt n) (repEv n) = some (repSt (n + 1)) := by
  by_cases hn : n < 10
  · match n, hn with
    | 0, _ => rfl
    | 1, _ => rfl
    | 2, _ => rfl
    | 3, _ => rfl
    | 4, _ => rfl
    | 5, _ => rfl
    | 6, _ => rfl
    | 7, _ => rfl
    | 8, _ => rfl
    | 9, _ => rfl
  · rcases repSt_ge n (by omega) with ⟨e, h⟩ | ⟨e, h⟩
    · have he : repEv n = .take 0 := by rw [repEv_tail _ (by omega)]; simp [e]
      rcases repSt_ge (n + 1) (by omega) with ⟨e', h'⟩ | ⟨e', h'⟩
      · omega
      · rw [h, h', he]; rfl
    · have he : repEv n = .log 0 := by rw [repEv_tail _ (by omega)]; simp [e]
      rcases repSt_ge (n + 1) (by omega) with ⟨e', h'⟩ | ⟨e', h'⟩
      · rw [h, h', he]; rfl
      · omega

/-- An execution as in `C114_reported`: gossip is forced on; a block and a transaction are published; the statistics
goroutine takes and logs for ever. -/
example : Exec 8 { alwaysEnable := true } repSt repEv ∧ (∀ j, FairStat 8 { alwaysEnable := true } repSt repEv j) ∧
    (∀ m, 10 ≤ m → ∃ g, (repSt m).block.gens[0]? = some g ∧ g.cancelled = false) ∧
    (∀ m, (repSt m).block.published.length < 2 ^ 32 ∧ (repSt m).tx.published.length < 2 ^ 32) ∧
    (repSt 10).block.published.length = 1 ∧ (repSt 10).tx.published.length = 1 := by
  refine ⟨⟨rfl, fun n => Or.inr (repSt_step n)⟩, fun j n hall => ?_, fun m hm => ?_, fun m => ?_, rfl, rfl⟩
  · cases j with
    | zero =>
      refine ⟨10 + 2 * n, by omega, Or.inl ?_⟩
      rw [repEv_tail _ (by omega), if_pos (by omega)]
    | succ j =>
      exfalso
      have := hall (10 + 2 * n) (by omega)
      rw [(repSt_end n).1] at this
      rcases this with h | h <;> cases h
  · rcases repSt_ge m hm with ⟨_, h⟩ | ⟨_, h⟩ <;> (rw [h]; exact ⟨_, rfl, rfl⟩)
  · by_cases hm : m < 10
    · match m, hm with
      | 0, _ => exact ⟨by decide +kernel, by decide +kernel⟩
      | 1, _ => exact ⟨by decide +kernel, by decide +kernel⟩
      | 2, _ => exact ⟨by decide +kernel, by decide +kernel⟩
      | 3, _ => exact ⟨by decide +kernel, by decide +kernel⟩
      | 4, _ => exact ⟨by decide +kernel, by decide +kernel⟩
      | 5, _ => exact ⟨by decide +kernel, by decide +kernel⟩
      | 6, _ => exact ⟨by decide +kernel, by decide +kernel⟩
      | 7, _ => exact ⟨by decide +kernel, by decide +kernel⟩
      | 8, _ => exact ⟨by decide +kernel, by decide +kernel⟩
      | 9, _ => exact ⟨by decide +kernel, by decide +kernel⟩
    · rcases repSt_ge m (by omega) with ⟨_, h⟩ | ⟨_, h⟩ <;> (rw [h]; exact ⟨by decide +kernel, by decide +kernel⟩)

private def finEvs : List Serv.Label := [.begin, .toggle, .toggle, .set, .take 0, .over, .log 0, .finish 0]
private def finEv (n : Nat) : Serv.Label := (finEvs[n]?).getD (.head 0)
private def finSt : Nat → Serv.State
  | 0 => Serv.init
  | n + 1 => (Serv.step 8 { alwaysEnable := true } (finSt n) (finEv n)).getD Serv.init

private theorem finSt_end (d : Nat) : finSt (8 + d) = finSt 8 := by
  induction d with
  | zero => rfl
  | succ d ih =>
    have he : finEv (8 + d) = .head 0 := by simp [finEv, finEvs]
    show (Serv.step 8 { alwaysEnable := true } (finSt (8 + d)) (finEv (8 + d))).getD Serv.init = _
    rw [he, ih]; rfl

/-- An execution as in `C114_reporter_ends`: the context ends while the goroutine has a number in hand. -/
example : Exec 8 { alwaysEnable := true } finSt finEv ∧ FairStat 8 { alwaysEnable := true } finSt finEv 0 ∧
    FairFinish 8 { alwaysEnable := true } finSt finEv 0 ∧
    (∀ m, 6 ≤ m → ∃ g, (finSt m).block.gens[0]? = some g ∧ g.cancelled = true) ∧ (finSt 6).stats[0]? = some (.took 0) := by
  refine ⟨⟨rfl, fun n => Or.inr ?_⟩, fun n hall => ?_, fun n hall => ?_, fun m hm => ?_, rfl⟩
  · by_cases hn : n < 8
    · match n, hn with
      | 0, _ => rfl
      | 1, _ => rfl
      | 2, _ => rfl
      | 3, _ => rfl
      | 4, _ => rfl
      | 5, _ => rfl
      | 6, _ => rfl
      | 7, _ => rfl
    · obtain ⟨d, rfl⟩ := Nat.exists_eq_add_of_le (Nat.le_of_not_lt hn)
      have he : finEv (8 + d) = .head 0 := by simp [finEv, finEvs]
      have h1 := finSt_end (d + 1)
      rw [finSt_end d, he, show 8 + d + 1 = 8 + (d + 1) from rfl, h1]; rfl
  · have := hall (8 + n) (by omega)
    rw [finSt_end] at this
    rcases this with h | h <;> cases h
  · obtain ⟨k, hk, h⟩ := hall (8 + n) (by omega)
    obtain ⟨d, rfl⟩ := Nat.exists_eq_add_of_le (show 8 ≤ k by omega)
    rw [finSt_end] at h; cases h
  · by_cases h6 : m = 6
    · subst h6; exact ⟨_, rfl, rfl⟩
    by_cases h7 : m = 7
    · subst h7; exact ⟨_, rfl, rfl⟩
    obtain ⟨d, rfl⟩ := Nat.exists_eq_add_of_le (show 8 ≤ m by omega)
    rw [finSt_end]; exact ⟨_, rfl, rfl⟩

end KP2P

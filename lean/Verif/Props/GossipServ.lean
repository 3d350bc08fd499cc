import Verif.Proof.Fair
import Verif.Proof.GossipServ
/-!
# C112, C113, C114: the gossip service as a whole
-/

namespace KP2P
open KP2P.Serv KP2P.Spec.Serv

namespace Serv

theorem reach_base {cap : GossipRun.Cap} {o : ToggleOpts} {P : State → Label → Prop} (hP : ∀ s l, P s l → NotClosing s l)
    {s : State} (h : Reach cap o P s) : Base s ∧ s.close = .notYet := by
  induction h with
  | init => exact ⟨base_init, rfl⟩
  | step _ hp hs ih => exact base_step ih.1 ih.2 (hP _ _ hp) hs

theorem reach_topics {cap : GossipRun.Cap} {o : ToggleOpts} {s : State}
    (h : Reach cap o (fun s l => NotClosing s l ∧ Prompt s l) s) : Topics s s.tog := by
  induction h with
  | init => exact ⟨⟨rfl, by intro i g h; simp [init, GossipRun.init] at h⟩, rfl, by intro i g h; simp [init, GossipRun.init] at h⟩
  | step hr hp hs ih =>
    have hb := reach_base (fun _ _ h => h.1) hr
    exact topics_step hb.1 hb.2 hp.1 hp.2 hs ih

theorem reach_closing {cap : GossipRun.Cap} {o : ToggleOpts} {s : State} (h : Reach cap o CloseLast s) : Closing s s.close := by
  induction h with
  | init => exact base_init
  | step _ hp hs ih => exact closing_step ih hp hs

/-- Run a sequence of steps, each of which passes a test. -/
def checked (cap : GossipRun.Cap) (o : ToggleOpts) (p : State → Label → Bool) (s : State) : List Label → Option State
  | [] => some s
  | l :: ls => if p s l then (step cap o s l).bind fun s' => checked cap o p s' ls else none

theorem reach_checked {cap : GossipRun.Cap} {o : ToggleOpts} {p : State → Label → Bool} {P : State → Label → Prop}
    (hP : ∀ s l, p s l = true → P s l) : ∀ (ls : List Label) (s s' : State), Reach cap o P s → checked cap o p s ls = some s' →
      Reach cap o P s' := by
  intro ls
  induction ls with
  | nil => intro s s' h he; cases he; exact h
  | cons l ls ih =>
    intro s s' h he
    simp only [checked] at he
    split at he
    · rename_i hp
      cases hs : step cap o s l with
      | none => rw [hs] at he; cases he
      | some t => rw [hs] at he; exact ih t s' (.step h (hP s l hp) hs) he
    · cases he

/-- Tests for `Launched` and the conditions on steps. -/
def launchedB (s : State) : Bool := s.block.gens.all (fun g => g.pc ≠ .spawned) && s.tx.gens.all (fun g => g.pc ≠ .spawned)

theorem launched_of {s : State} (h : launchedB s = true) : Launched s := by
  simp only [launchedB, Bool.and_eq_true, List.all_eq_true, decide_eq_true_eq] at h
  exact ⟨fun i g hg => h.1 g (List.mem_of_getElem? hg), fun i g hg => h.2 g (List.mem_of_getElem? hg)⟩

def promptB (s : State) : Label → Bool
  | .close => false
  | .tick _ _ => launchedB s
  | _ => true

theorem prompt_of (s : State) (l : Label) (h : promptB s l = true) : NotClosing s l ∧ Prompt s l := by
  refine ⟨fun e => ?_, fun c n e => ?_⟩
  · subst e; cases h
  · subst e; exact launched_of h

def closeLastB (s : State) : Label → Bool
  | .close => s.tog = .returned && launchedB s
  | _ => true

theorem closeLast_of (s : State) (l : Label) (h : closeLastB s l = true) : CloseLast s l := by
  intro e; subst e
  simp only [closeLastB, Bool.and_eq_true, decide_eq_true_eq] at h
  exact ⟨h.1, launched_of h.2⟩

end Serv

/-! ### C112 -/

/-- C112. As long as the node is not being closed: between the toggle's checks the answer of the status RPC is the last
status broadcast, and if it is "off", every context made for gossip has ended. During a switch the two differ only between
the broadcast and the assignment that follows it. -/
theorem C112_status {cap : GossipRun.Cap} {o : ToggleOpts} {s : Serv.State} (h : Reach cap o NotClosing s) :
    (AtRest s → s.enabled = lastTold s ∧ (s.enabled = false → AllCancelled s)) ∧
    (s.enabled ≠ lastTold s → s.tog = .setting (lastTold s)) := by
  obtain ⟨⟨h1, h2, h3, h4, h5⟩, _⟩ := reach_base (fun _ _ h => h) h
  refine ⟨fun hr => ?_, fun hne => ?_⟩
  · have key : s.enabled = lastTold s ∧ (s.enabled = false → s.ptr = none) := by
      rcases hr with hr | hr | hr
      · rw [hr] at h4; exact ⟨h4.1.trans h4.2.1.symm, fun _ => h4.2.2⟩
      · rw [hr] at h4
        exact ⟨h4.1.symm, fun he => by have := h4.2; rw [he] at this; simpa using this⟩
      · rw [hr] at h4
        exact ⟨h4.1.symm, fun he => by have := h4.2; rw [he] at this; simpa using this⟩
    refine ⟨key.1, fun he => ?_⟩
    have hp := key.2 he
    rw [hp] at h2 h3
    exact ⟨fun i g hg => (h2.gen i g hg).resolve_right fun h => (by cases h.1),
      fun i g hg => (h3.gen i g hg).resolve_right fun h => (by cases h.1)⟩
  · cases ht : s.tog with
    | fresh => rw [ht] at h4; exact absurd (h4.1.trans h4.2.1.symm) hne
    | idle => rw [ht] at h4; exact absurd h4.1.symm hne
    | returned => rw [ht] at h4; exact absurd h4.1.symm hne
    | setting on => rw [ht] at h4; rw [h4.2.1]
    | calling on c =>
      rw [ht] at h4
      exfalso
      cases on <;> cases c <;> first
        | exact h4.elim
        | exact hne (h4.1.trans h4.2.1.symm)
        | (rename_i b; cases b <;> first | exact h4.elim | exact hne (h4.1.trans h4.2.1.symm))

/-- C112 as far as it goes for the topics: if start-up goroutines run before the toggle's next check, then between the
checks, once they have run, both topics are on exactly if the status RPC says so. Missing: `C112_late_start_refuted`. -/
theorem C112_topics_partial {cap : GossipRun.Cap} {o : ToggleOpts} {s : Serv.State}
    (h : Reach cap o (fun s l => NotClosing s l ∧ Prompt s l) s) (hr : AtRest s) (hl : Launched s) :
    s.block.enabled = s.enabled ∧ s.tx.enabled = s.enabled := by
  have hT := reach_topics h
  have h4 := (reach_base (fun _ _ h => h.1) h).1.phase
  have on : ∀ {t : GossipRun.State}, TopicLaunched t → TopicOn t → t.enabled = true := by
    intro t hl ht
    rcases ht with ht | ⟨i, g, hg, hp⟩
    · exact ht
    · exact absurd hp (hl i g hg)
  have main : (if s.enabled then TopicOn s.block ∧ TopicOn s.tx else TopicOff s.block ∧ TopicOff s.tx) := by
    rcases hr with hr | hr | hr
    · rw [hr] at hT h4; rw [h4.1]; exact hT
    · rw [hr] at hT; exact hT
    · rw [hr] at hT; exact hT
  cases he : s.enabled with
  | true => rw [he] at main; exact ⟨on hl.1 main.1, on hl.2 main.2⟩
  | false => rw [he] at main; exact ⟨main.1.1, main.2.1⟩

/-- The claim without the assumption about start-up goroutines. -/
def SaysWhatItDoes (cap : GossipRun.Cap) (o : ToggleOpts) : Prop :=
  ∀ s, Reach cap o NotClosing s → AtRest s → Launched s → s.block.enabled = s.enabled ∧ s.tx.enabled = s.enabled

private def lateRun : List Serv.Label :=
  [.begin, .head 100000, .tick 1 0, .toggle, .toggle, .set, .tick 0 0, .toggle, .toggle, .toggle, .toggle, .toggle, .toggle,
    .set, .block (.launch 0), .tx (.launch 0)]

private def notClosingB (_ : Serv.State) : Serv.Label → Bool
  | .close => false
  | _ => true

/-- C112 refuted without that assumption: gossip is switched on and off again before the start-up goroutines have run; when
they run, the topics are on although the node says, and told, that gossip is off. -/
theorem C112_late_start_refuted (cap : GossipRun.Cap) : ¬ SaysWhatItDoes cap {} := by
  intro h
  have key : ∀ c, ∃ s, checked c {} notClosingB Serv.init lateRun = some s ∧ s.tog = .idle ∧ launchedB s = true ∧
      s.block.enabled = true ∧ s.enabled = false := fun c => ⟨_, rfl, rfl, rfl, rfl, rfl⟩
  obtain ⟨s, hs, h1, h2, h3, h4⟩ := key cap
  have hr : Reach cap {} NotClosing s :=
    reach_checked (p := notClosingB) (fun s l h e => by subst e; cases h) _ _ _ .init hs
  have := (h s hr (Or.inr (Or.inl h1)) (launched_of h2)).1
  rw [h3, h4] at this
  cases this

/-- Gossip switched on, off and on again with the start-up goroutines running in time. -/
private def promptRun : List Serv.Label :=
  [.begin, .head 100000, .tick 1 0, .toggle, .toggle, .set, .tx (.launch 0), .block (.launch 0), .tick 0 0, .toggle, .toggle,
    .toggle, .toggle, .toggle, .toggle, .set, .tick 3 0, .toggle, .block (.launch 1), .toggle, .set, .tx (.launch 1)]

example : ∃ s, Reach 8 {} (fun s l => NotClosing s l ∧ Prompt s l) s ∧ AtRest s ∧ Launched s ∧ s.enabled = true ∧
    s.told = [true, false, true] := by
  have : ∃ s, checked 8 {} promptB Serv.init promptRun = some s ∧ s.tog = .idle ∧ launchedB s = true ∧ s.enabled = true ∧
      s.told = [true, false, true] := ⟨_, rfl, rfl, rfl, rfl, rfl⟩
  obtain ⟨s, hs, h1, h2, h3, h4⟩ := this
  exact ⟨s, reach_checked prompt_of _ _ _ .init hs, Or.inr (Or.inl h1), launched_of h2, h3, h4⟩

private theorem exec_fit {cap : GossipRun.Cap} {o : ToggleOpts} {σ : Nat → Serv.State} {ev : Nat → Serv.Label}
    (h : Exec cap o σ ev) (n : Nat) : Fit (σ n) := by
  induction n with
  | zero =>
    rw [h.1]
    exact ⟨⟨fun h => (by cases h)⟩, ⟨fun h => (by cases h)⟩, fun i hi => (by cases hi), rfl⟩
  | succ n ih =>
    rcases h.2 n with ⟨_, he⟩ | hs
    · rw [he]; exact ih
    · exact fit_step ih hs

private theorem rank_step {cap : GossipRun.Cap} {o : ToggleOpts} {s s' : Serv.State} {l : Serv.Label}
    (hs : Serv.step cap o s l = some s') (hr : ¬ AtRest s) :
    AtRest s' ∨ (togRank s'.tog ≤ togRank s.tog ∧ (OfToggle l → togRank s'.tog < togRank s.tog)) := by
  obtain ⟨_, ht⟩ := step_tr hs
  have keep : ∀ {c : Serv.Call} {s1 : Serv.State} {n : Option Serv.Call}, Act cap s c s1 n → s1.tog = s.tog := by
    intro c s1 n ha; cases ha <;> rfl
  cases ht with
  | beginOn hf _ => exact absurd (Or.inl hf) hr
  | beginOff hf _ => exact absurd (Or.inl hf) hr
  | beginLoop hf _ => exact absurd (Or.inl hf) hr
  | tickSame c n hi => exact absurd (Or.inr (Or.inl hi)) hr
  | tickOn c n hi he => exact absurd (Or.inr (Or.inl hi)) hr
  | tickOff c n hi he => exact absurd (Or.inr (Or.inl hi)) hr
  | leave hi _ => exact absurd (Or.inr (Or.inl hi)) hr
  | toggle on c c' s1 htog ha =>
    right
    have := act_rank ha
    rw [htog]
    simp only [togRank]
    exact ⟨by omega, fun _ => by omega⟩
  | toggleEnd on c s1 htog ha =>
    right
    rw [htog]
    have : 0 < callRank c := by cases c <;> simp [callRank]
    simp only [togRank]
    exact ⟨by omega, fun _ => by omega⟩
  | setOne on hs _ => exact Or.inl (Or.inr (Or.inr rfl))
  | set on hs _ => exact Or.inl (Or.inr (Or.inl rfl))
  | closing c c' s1 hcl ha =>
    right
    show togRank s1.tog ≤ _ ∧ _
    rw [keep ha]
    exact ⟨Nat.le_refl _, fun h => by rcases h with h | h <;> cases h⟩
  | closingEnd c s1 hcl ha =>
    right
    show togRank s1.tog ≤ _ ∧ _
    rw [keep ha]
    exact ⟨Nat.le_refl _, fun h => by rcases h with h | h <;> cases h⟩
  | _ => exact Or.inr ⟨Nat.le_refl _, fun h => by rcases h with h | h <;> cases h⟩

/-- C112. Every switch comes to an end, also while the node is being closed: in an execution in which the toggle's goroutine
gets its turn it is at rest again and again, or the process panics (C53, C113). -/
theorem C112_switch_ends {cap : GossipRun.Cap} {o : ToggleOpts} {σ : Nat → Serv.State} {ev : Nat → Serv.Label}
    (h : Exec cap o σ ev) (hf : FairToggle cap o σ ev) (n : Nat) : ∃ m, n ≤ m ∧ ((σ m).dead = true ∨ AtRest (σ m)) := by
  refine leads_to (σ := σ) (ev := ev) (fun s => togRank s.tog) (fun _ => True) (fun s => s.dead = true ∨ AtRest s)
    (fun _ l => OfToggle l) (fun k _ hq => ?_) (fun k hall => ?_) n trivial
  · rcases h.2 k with ⟨hd, _⟩ | hs
    · exact absurd (Or.inl hd) hq
    · exact (rank_step hs fun e => hq (Or.inr e)).imp Or.inr fun e => ⟨trivial, e⟩
  · refine hf k fun m hm => ?_
    obtain ⟨_, hq⟩ := hall m hm
    have hd : (σ m).dead = false := by
      cases hd : (σ m).dead with
      | false => rfl
      | true => exact absurd (Or.inl hd) hq
    cases ht : (σ m).tog with
    | fresh => exact absurd (Or.inr (Or.inl ht)) hq
    | idle => exact absurd (Or.inr (Or.inr (Or.inl ht))) hq
    | returned => exact absurd (Or.inr (Or.inr (Or.inr ht))) hq
    | setting on => exact ⟨.set, Or.inr rfl, by simp [Serv.step, hd, ht]⟩
    | calling on c =>
      refine ⟨.toggle, Or.inl rfl, ?_⟩
      have := act_some (cap := cap) (exec_fit h m) hd c
      obtain ⟨⟨s1, n1⟩, he⟩ := Option.isSome_iff_exists.1 this
      cases n1 <;> simp [Serv.step, hd, ht, he]

private def onEvs : List Serv.Label := [.begin, .toggle, .toggle, .set]
private def onEv (n : Nat) : Serv.Label := (onEvs[n]?).getD (.head 0)
private def onSt : Nat → Serv.State
  | 0 => Serv.init
  | n + 1 => (Serv.step 8 { alwaysEnable := true } (onSt n) (onEv n)).getD Serv.init

private theorem onSt_end (d : Nat) : onSt (4 + d) = onSt 4 := by
  induction d with
  | zero => rfl
  | succ d ih =>
    have he : onEv (4 + d) = .head 0 := by simp [onEv, onEvs]
    have : onSt (4 + (d + 1)) = (Serv.step 8 { alwaysEnable := true } (onSt (4 + d)) (onEv (4 + d))).getD Serv.init := rfl
    rw [this, he, ih]; rfl

/-- An execution: gossip is forced on, then nothing but head updates. -/
example : Exec 8 { alwaysEnable := true } onSt onEv ∧ FairToggle 8 { alwaysEnable := true } onSt onEv := by
  refine ⟨⟨rfl, fun n => Or.inr ?_⟩, fun n hall => ?_⟩
  · by_cases hn : n < 4
    · match n, hn with
      | 0, _ => rfl
      | 1, _ => rfl
      | 2, _ => rfl
      | 3, _ => rfl
    · obtain ⟨d, rfl⟩ := Nat.exists_eq_add_of_le (Nat.le_of_not_lt hn)
      have he : onEv (4 + d) = .head 0 := by simp [onEv, onEvs]
      have h1 := onSt_end (d + 1)
      rw [onSt_end d, he, show 4 + d + 1 = 4 + (d + 1) from rfl, h1]; rfl
  · obtain ⟨l, hl, he⟩ := hall (4 + n) (by omega)
    rw [onSt_end] at he
    rcases hl with rfl | rfl <;> cases he

/-! ### C53 and C110 for the service as a whole -/

/-- C53, the other possible panic: the test and the use of the cancel function in `StopGossip` are not one step; but as long
as the node is not being closed nobody comes between. Missing: `C113_panic_refuted`. -/
theorem C53_pointer_partial {cap : GossipRun.Cap} {o : ToggleOpts} {s : Serv.State} (h : Reach cap o NotClosing s) :
    s.panicked = false := (reach_base (fun _ _ h => h) h).1.alive

/-! ### C113 -/

/-- C113 as far as it holds: if `Close` is called after the toggle's goroutine has returned and after all start-up
goroutines have run, then once `Close` has returned both topics are off, nothing can switch them on again, every context made
for gossip has ended, "off" was the last status broadcast, and `StopGossip` has not panicked. -/
theorem C113_orderly_partial {cap : GossipRun.Cap} {o : ToggleOpts} {s : Serv.State} (h : Reach cap o CloseLast s)
    (hc : s.close = .closed) :
    s.block.enabled = false ∧ s.tx.enabled = false ∧ AllCancelled s ∧ lastTold s = false ∧ s.panicked = false := by
  have key := reach_closing h
  rw [hc] at key
  obtain ⟨⟨_, _, h2, h3, h5⟩, ⟨a, b⟩, hp, hl⟩ := key
  rw [hp] at h2 h3
  exact ⟨a.1, b.1, ⟨fun i g hg => (h2.gen i g hg).resolve_right fun h => (by cases h.1),
    fun i g hg => (h3.gen i g hg).resolve_right fun h => (by cases h.1)⟩, hl, h5⟩

/-- C113, and after that nothing is published. -/
theorem C113_silent_partial {cap : GossipRun.Cap} {o : ToggleOpts} {s s' : Serv.State} {l : Serv.Label}
    (h : Reach cap o CloseLast s) (hc : s.close = .closed) (hs : Serv.step cap o s l = some s') :
    s'.close = .closed ∧ s'.block.published = s.block.published ∧ s'.tx.published = s.tx.published := by
  obtain ⟨h1, h2, _⟩ := C113_orderly_partial h hc
  have key := reach_closing h
  have hret := closing_returned (by rw [hc]; simp) key
  have pub : ∀ {t t' : GossipRun.State} {l : GossipRun.Label}, t.enabled = false → GossipRun.step cap t l = some t' →
      t'.published = t.published := by
    intro t t' l ht hs
    obtain ⟨_, he⟩ := GossipRun.step_eff hs
    cases he <;> first | rfl | (rename_i he; rw [ht] at he; cases he)
  obtain ⟨_, ht⟩ := step_tr hs
  cases ht with
  | block l b ho hb => exact ⟨hc, pub h1 hb, rfl⟩
  | tx l t ho hb => exact ⟨hc, rfl, pub h2 hb⟩
  | over b t hb ht => exact ⟨hc, pub h1 hb, pub h2 ht⟩
  | toggle on c c' s1 htog ha => rw [hret] at htog; cases htog
  | toggleEnd on c s1 htog ha => rw [hret] at htog; cases htog
  | close hcl => rw [hc] at hcl; cases hcl
  | closing c c' s1 hcl ha => rw [hc] at hcl; cases hcl
  | closingEnd c s1 hcl ha => rw [hc] at hcl; cases hcl
  | closed hcl => rw [hc] at hcl; cases hcl
  | _ => exact ⟨hc, rfl, rfl⟩

/-- The claim as main.go uses `Close`, with the toggle still running: once `Close` has returned, gossip is off. -/
def ClosedIsOff (cap : GossipRun.Cap) (o : ToggleOpts) : Prop :=
  ∀ s, Reach cap o (fun s l => l = .close → Launched s) s → s.close = .closed → s.block.enabled = false ∧ lastTold s = false

private def launchedCloseB (s : Serv.State) : Serv.Label → Bool
  | .close => launchedB s
  | _ => true

private theorem launchedClose_of (s : Serv.State) (l : Serv.Label) (h : launchedCloseB s l = true) :
    l = .close → Launched s := by
  intro e; subst e; exact launched_of h

private def againRun : List Serv.Label :=
  [.begin, .close, .closing, .closing, .closing, .closing, .closing, .head 100000, .tick 1 0, .toggle, .toggle, .set,
    .block (.launch 0)]

/-- C113 refuted: the toggle is not stopped by `Close`, and its next check may switch gossip on again. -/
theorem C113_again_refuted (cap : GossipRun.Cap) : ¬ ClosedIsOff cap {} := by
  intro h
  have key : ∀ c, ∃ s, checked c {} launchedCloseB Serv.init againRun = some s ∧ s.close = .closed ∧
      s.block.enabled = true := fun c => ⟨_, rfl, rfl, rfl⟩
  obtain ⟨s, hs, h1, h2⟩ := key cap
  have := (h s (reach_checked launchedClose_of _ _ _ .init hs) h1).1
  rw [h2] at this; cases this

/-- The claim that after `Close`, even with the toggle returned, the status RPC says that gossip is off. -/
def ClosedSaysOff (cap : GossipRun.Cap) (o : ToggleOpts) : Prop :=
  ∀ s, Reach cap o CloseLast s → s.close = .closed → s.enabled = false

private def forcedRun : List Serv.Label :=
  [.begin, .toggle, .toggle, .set, .block (.launch 0), .tx (.launch 0), .close, .closing, .closing, .closing, .closing, .closing,
    .closing, .closing]

/-- C113 refuted: with gossip forced on the status RPC says "on" for ever, also after `Close`. -/
theorem C113_status_refuted (cap : GossipRun.Cap) : ¬ ClosedSaysOff cap { alwaysEnable := true } := by
  intro h
  have key : ∀ c, ∃ s, checked c { alwaysEnable := true } closeLastB Serv.init forcedRun = some s ∧ s.close = .closed ∧
      s.enabled = true := fun c => ⟨_, rfl, rfl, rfl⟩
  obtain ⟨s, hs, h1, h2⟩ := key cap
  have := h s (reach_checked closeLast_of _ _ _ .init hs) h1
  rw [h2] at this; cases this

/-- The claim that `Close` never panics. -/
def CloseIsSafe (cap : GossipRun.Cap) (o : ToggleOpts) : Prop :=
  ∀ s, Reach cap o (fun s l => l = .close → Launched s) s → s.panicked = false

private def bothRun : List Serv.Label :=
  [.begin, .head 100000, .tick 1 0, .toggle, .toggle, .set, .block (.launch 0), .tx (.launch 0), .tick 0 0, .toggle, .toggle,
    .close, .closing, .closing, .toggle, .closing, .closing, .closing, .toggle]

/-- C113 refuted: the toggle switches gossip off while `Close` does the same. Both find the cancel function set; one clears it
before the other calls it. -/
theorem C113_panic_refuted (cap : GossipRun.Cap) : ¬ CloseIsSafe cap {} := by
  intro h
  have key : ∀ c, ∃ s, checked c {} launchedCloseB Serv.init bothRun = some s ∧ s.panicked = true := fun c => ⟨_, rfl, rfl⟩
  obtain ⟨s, hs, h1⟩ := key cap
  have := h s (reach_checked launchedClose_of _ _ _ .init hs)
  rw [h1] at this; cases this

/-- An orderly end: gossip on, the node's context ends, the toggle returns, `Close`; messages in between. -/
private def orderlyRun : List Serv.Label :=
  [.begin, .head 100000, .tick 1 0, .toggle, .toggle, .set, .block (.launch 0), .tx (.launch 0), .block (.publish [1]), .over,
    .leave, .close, .closing, .closing, .closing, .closing, .closing, .closing, .closing, .block (.publish [2])]

example : ∃ s, Reach 8 {} CloseLast s ∧ s.close = .closed ∧ s.block.published = [[1]] ∧ s.told = [true, false] := by
  have : ∃ s, checked 8 {} closeLastB Serv.init orderlyRun = some s ∧ s.close = .closed ∧ s.block.published = [[1]] ∧
      s.told = [true, false] := ⟨_, rfl, rfl, rfl, rfl⟩
  obtain ⟨s, hs, h1⟩ := this
  exact ⟨s, reach_checked closeLast_of _ _ _ .init hs, h1⟩

/-! ### C114 -/

private theorem reach_counted {cap : GossipRun.Cap} {o : ToggleOpts} {P : Serv.State → Serv.Label → Prop} {s : Serv.State}
    (h : Reach cap o P s) : Counted s := by
  induction h with
  | init => exact ⟨⟨0, rfl⟩, 0, rfl⟩
  | step _ _ hs ih => exact counted_step ih hs

/-- C114. The numbers of blocks logged, taken but not yet logged, and still in the counter add up to the number of blocks
published, up to multiples of 2^32 (the counter has 32 bits); the same for transactions. -/
theorem C114_conserved {cap : GossipRun.Cap} {o : ToggleOpts} {P : Serv.State → Serv.Label → Prop} {s : Serv.State}
    (h : Reach cap o P s) :
    ((s.logged.map fun p => p.1.toNat).sum + (s.stats.map inHand).sum + s.blocks.toNat) % 2 ^ 32 =
      s.block.published.length % 2 ^ 32 ∧
    ((s.logged.map fun p => p.2.toNat).sum + s.trxs.toNat) % 2 ^ 32 = s.tx.published.length % 2 ^ 32 := by
  obtain ⟨⟨k, h1⟩, k', h2⟩ := reach_counted h
  simp only [blockSum, trxSum] at h1 h2
  exact ⟨by omega, by omega⟩

/-- C114. Nothing is counted twice, and as long as fewer than 2^32 blocks (transactions) are published the sums are exact. -/
theorem C114_exact {cap : GossipRun.Cap} {o : ToggleOpts} {P : Serv.State → Serv.Label → Prop} {s : Serv.State}
    (h : Reach cap o P s) :
    (s.logged.map fun p => p.1.toNat).sum + (s.stats.map inHand).sum + s.blocks.toNat ≤ s.block.published.length ∧
    (s.logged.map fun p => p.2.toNat).sum + s.trxs.toNat ≤ s.tx.published.length ∧
    (s.block.published.length < 2 ^ 32 →
      (s.logged.map fun p => p.1.toNat).sum + (s.stats.map inHand).sum + s.blocks.toNat = s.block.published.length) ∧
    (s.tx.published.length < 2 ^ 32 → (s.logged.map fun p => p.2.toNat).sum + s.trxs.toNat = s.tx.published.length) := by
  obtain ⟨⟨k, h1⟩, k', h2⟩ := reach_counted h
  simp only [blockSum, trxSum] at h1 h2
  exact ⟨by omega, by omega, fun h => by omega, fun h => by omega⟩

/-- C114. Only news is logged. -/
theorem C114_no_empty_report {cap : GossipRun.Cap} {o : ToggleOpts} {P : Serv.State → Serv.Label → Prop} {s : Serv.State}
    (h : Reach cap o P s) : ∀ p ∈ s.logged, p.1 > 0 ∨ p.2 > 0 := by
  induction h with
  | init => intro p hp; cases hp
  | @step s s' l _ _ hs ih =>
    obtain ⟨_, ht⟩ := step_tr hs
    have keep : ∀ {c : Serv.Call} {s1 : Serv.State} {n : Option Serv.Call}, Act cap s c s1 n → s1.logged = s.logged := by
      intro c s1 n ha; cases ha <;> rfl
    cases ht with
    | toggle on c c' s1 htog ha => exact (keep ha).symm ▸ ih
    | toggleEnd on c s1 htog ha => exact (keep ha).symm ▸ ih
    | closing c c' s1 hcl ha => exact (keep ha).symm ▸ ih
    | closingEnd c s1 hcl ha => exact (keep ha).symm ▸ ih
    | log i n hi =>
      dsimp only
      split
      · rename_i hc
        intro p hp
        rcases List.mem_append.1 hp with hp | hp
        · exact ih p hp
        · rw [List.mem_singleton.1 hp]; exact hc
      · exact ih
    | _ => exact ih

/-- Two blocks and a transaction published, one block logged, one taken. -/
private def statRun : List Serv.Label :=
  [.begin, .head 100000, .tick 1 0, .toggle, .toggle, .set, .block (.launch 0), .tx (.launch 0), .block (.publish [1]),
    .take 0, .tx (.publish [7]), .log 0, .block (.publish [2]), .take 0]

example : ∃ s, Reach 8 {} (fun _ _ => True) s ∧ s.logged = [(1, 1)] ∧ s.stats = [.took 1] ∧ s.block.published.length = 2 := by
  have : ∃ s, checked 8 {} (fun _ _ => true) Serv.init statRun = some s ∧ s.logged = [(1, 1)] ∧ s.stats = [.took 1] ∧
      s.block.published.length = 2 := ⟨_, rfl, rfl, rfl, rfl⟩
  obtain ⟨s, hs, h1⟩ := this
  exact ⟨s, reach_checked (fun _ _ _ => trivial) _ _ _ .init hs, h1⟩

end KP2P

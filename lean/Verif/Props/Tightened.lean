import Verif.Props.Session
import Verif.Props.GossipRun
import Verif.Props.ApplicatorSched
/-!
# Statements added after seeded faults were found to break proofs only, and no statement

C43 (a session ends only when it is cancelled), C104 (forced retries are paced), C105 (one subscription at a time).
-/

namespace KP2P
open KP2P.PeerConn (Opts)

/-! ## C43 -/

/-- C43. A session does not end by itself: when it has ended, its context was cancelled. -/
theorem C43_ends_only_cancelled (o : Opts) (s : Session.State) (hr : Session.Reachable o s) :
    (s.phase = .ended → s.cancelled = true) ∧ (s.cancelled = true → Session.Ev.cancel ∈ s.log) := by
  obtain ⟨ls, hr⟩ := hr
  suffices h : ∀ (ls : List Session.Label) (u : Session.State),
      ((u.phase = .ended → u.cancelled = true) ∧ (u.cancelled = true → Session.Ev.cancel ∈ u.log)) →
      Session.run o u ls = some s →
      (s.phase = .ended → s.cancelled = true) ∧ (s.cancelled = true → Session.Ev.cancel ∈ s.log) from
    h ls _ ⟨by simp [Session.init], by simp [Session.init]⟩ hr
  intro ls
  induction ls with
  | nil => intro u h hr; cases hr; exact h
  | cons l ls ih =>
    intro u h hr
    unfold Session.run at hr
    split at hr
    · rename_i u' hu
      refine ih u' ?_ hr
      obtain ⟨h1, h2⟩ := h
      cases Session.step_eff hu <;> simp_all
    · cases hr

example : Session.Reachable Opts.default
    { Session.init with cancelled := true, log := [.cancel] } := ⟨[.cancel], rfl⟩

/-! ## C104 -/

section Retry
open KP2P.App

/-- The steps that bring no news to the main loop: no new block, no announcement, no end of an application. -/
def NoNews : App.Label → Bool
  | .newBlock _ => false
  | .forkHeads _ _ => false
  | .broadcast _ _ => false
  | .status _ => false
  | _ => true

/-- The main loop takes up a request to apply a block. -/
def isTry : App.Label → Bool
  | .tryBlock _ => true
  | _ => false

private def pot (T : Int) (s : AState) : Nat := s.tries.length + s.retries.countP fun r => decide (r.1 < T)

private theorem pot_step {o : AppOpts} {s s' : AState} {l : App.Label} {T : Int} (hl : NoNews l = true)
    (hs : App.step o s l = some s') :
    s.now ≤ s'.now ∧ (T ≤ s.now + o.forceApplicationRetryDelay → s.now < T →
      (if isTry l then 1 else 0) + pot T s' ≤ pot T s) := by
  cases l with
  | newBlock => cases hl
  | forkHeads => cases hl
  | broadcast => cases hl
  | status => cases hl
  | applyBlock b =>
    cases hs
    unfold App.applyBlock
    cases hw : (s.watchdog.addBlk b).2 <;> simp [isTry, pot, hw]
  | callerReturns r =>
    simp only [App.step] at hs
    split at hs
    · split at hs
      · cases hs; simp [isTry, pot]
      · cases hs
    · cases hs
  | callerTimesOut r =>
    simp only [App.step] at hs
    split at hs
    · cases hs; simp [isTry, pot]
    · cases hs
  | tryBlock i =>
    simp only [App.step] at hs
    split at hs
    · rename_i b f _ ht
      cases hs
      have hlt := (List.getElem?_eq_some_iff.1 ht).1
      unfold App.handleTry
      dsimp only
      cases s.pending.has b.id <;> cases f <;>
        simp only [isTry, pot, List.length_eraseIdx, hlt, if_true, if_false, List.countP_append, List.countP_singleton,
          Bool.false_eq_true] <;> refine ⟨Int.le_refl _, fun h1 h2 => ?_⟩
      · omega
      · omega
      · omega
      · have hn : ¬ (s.now + o.forceApplicationRetryDelay < T) := by omega
        simp only [hn, decide_false, Bool.false_eq_true, if_false]
        omega
    · cases hs
  | delayDone i =>
    simp only [App.step] at hs
    split at hs
    · split at hs
      · cases hs; simp [isTry, pot]
      · cases hs
    · cases hs
  | delayTimeout i =>
    simp only [App.step] at hs
    split at hs
    · split at hs
      · cases hs; simp [isTry, pot]
      · cases hs
    · cases hs
  | work i =>
    simp only [App.step] at hs
    split at hs
    · split at hs <;> (cases hs; simp [isTry, pot])
    · cases hs
  | rpcReturn i e =>
    simp only [App.step] at hs
    split at hs
    · cases hs; simp [isTry, pot]
    · cases hs
  | retryDue i =>
    simp only [App.step] at hs
    split at hs
    · rename_i t b hr
      split at hs
      · rename_i htn
        cases hs
        have hperm : s.retries.Perm ((t, b) :: s.retries.eraseIdx i) := by
          obtain ⟨hlt, hget⟩ := List.getElem?_eq_some_iff.1 hr
          rw [← hget]
          exact (List.getElem_cons_eraseIdx_perm hlt).symm
        have hc := hperm.countP_eq (fun r : Int × Blk => decide (r.1 < T))
        refine ⟨Int.le_refl _, fun h1 h2 => ?_⟩
        have htT : t < T := by omega
        simp only [List.countP_cons, htT, decide_true, if_true] at hc
        simp only [isTry, pot, App.trySend, List.length_append, List.length_singleton, hc]
        simp; omega
      · cases hs
    · cases hs
  | tick d => cases hs; simp [isTry, pot]

/-- C104. Forced retries are paced. While nothing new reaches the main loop, in a span of time shorter than the retry delay
it takes up at most the requests that were waiting or scheduled at the beginning: a forced request that finds its block being
applied does not come back within the delay. -/
theorem C104_paced (o : AppOpts) (s s' : AState) (ls : List App.Label) (hl : ∀ l ∈ ls, NoNews l = true)
    (hr : App.run o s ls = some s') (ht : s'.now < s.now + o.forceApplicationRetryDelay) :
    ls.countP isTry ≤ s.tries.length + s.retries.length := by
  have mono : ∀ (ls : List App.Label) (u : AState), (∀ l ∈ ls, NoNews l = true) → App.run o u ls = some s' → u.now ≤ s'.now := by
    intro ls
    induction ls with
    | nil => intro u _ h; cases h; exact Int.le_refl _
    | cons l ls ih =>
      intro u hl h
      unfold App.run at h
      split at h
      · rename_i u' hu
        exact Int.le_trans (pot_step (T := 0) (hl l (.head _)) hu).1 (ih u' (fun x hx => hl x (.tail _ hx)) h)
      · cases h
  suffices h : ∀ (ls : List App.Label) (u : AState), (∀ l ∈ ls, NoNews l = true) → s.now ≤ u.now → App.run o u ls = some s' →
      ls.countP isTry ≤ pot (s.now + o.forceApplicationRetryDelay) u by
    refine Nat.le_trans (h ls s hl (Int.le_refl _) hr) ?_
    exact Nat.add_le_add_left List.countP_le_length _
  intro ls
  induction ls with
  | nil => intro u _ _ _; simp
  | cons l ls ih =>
    intro u hl hn h
    have hm := mono _ u hl h
    unfold App.run at h
    split at h
    · rename_i u' hu
      obtain ⟨h2, h1⟩ := pot_step (T := s.now + o.forceApplicationRetryDelay) (hl l (.head _)) hu
      have h1 := h1 (by omega) (by omega)
      have := ih u' (fun x hx => hl x (.tail _ hx)) (by omega) h
      rw [List.countP_cons]
      omega
    · cases h

/-- The hypotheses are met: a forced request meets the running application of its block and is put off by 50 ms. -/
example : ∃ s s', App.run {} (App.init 10 5 0) [.applyBlock ⟨[1], [0], 11, 0, [], []⟩, .newBlock 0, .tryBlock 0,
      .broadcast [0] 10] = some s ∧
    App.run {} s [.tryBlock 0, .tick 49999999] = some s' ∧ s'.now < s.now + ({} : AppOpts).forceApplicationRetryDelay ∧
    s.tries.map Prod.snd = [true] ∧ s'.tries = [] ∧ s'.retries.length = 1 :=
  ⟨_, _, rfl, rfl, by decide +kernel, by decide +kernel, by decide +kernel, by decide +kernel⟩

end Retry

/-! ## C105 -/

section Reader
open KP2P.GossipRun

/-- The reader of the subscription runs and has not been told to stop. -/
def ReaderActive (g : Gen) : Prop := (g.reader = .waiting ∨ g.reader = .holding) ∧ g.stopped = false

private def OneReader (s : GossipRun.State) : Prop :=
  ∀ (i : Nat) g, s.gens[i]? = some g → ReaderActive g → s.enabled = true ∧ s.current = some i

private theorem oneReader_put {s : GossipRun.State} (h : OneReader s) {i : Nat} {g g' : Gen} (hg : s.gens[i]? = some g)
    (ha : ReaderActive g' → ReaderActive g) : OneReader (s.put i g') := by
  intro j x hx hxa
  simp only [State.put, List.getElem?_set] at hx
  split at hx
  · rename_i hij
    split at hx
    · cases hx; subst hij; exact h i g hg (ha hxa)
    · cases hx
  · exact h j x hx hxa

private theorem oneReader_step {cap : Cap} {s s' : GossipRun.State} {l : GossipRun.Label} (h : OneReader s)
    (hs : GossipRun.step cap s l = some s') : OneReader s' := by
  by_cases hl : l = .stop
  · subst hl
    simp only [GossipRun.step] at hs
    split at hs
    · cases hs
    split at hs
    · split at hs
      · rename_i i hcur
        split at hs
        · rename_i g hg
          cases hs
          intro j x hx hxa
          exfalso
          simp only [State.put, List.getElem?_set] at hx
          split at hx
          · split at hx
            · cases hx; exact absurd hxa.2 (by simp)
            · cases hx
          · rename_i hij
            have := (h j x hx hxa).2
            rw [hcur] at this
            exact hij (Option.some.inj this)
        · cases hs
      · cases hs
    · cases hs; exact h
  · obtain ⟨_, he⟩ := step_eff hs
    cases he with
    | start =>
      intro j x hx hxa
      simp only [List.getElem?_append] at hx
      split at hx
      · exact h j x hx hxa
      · have := List.mem_of_getElem? hx
        simp only [List.mem_singleton] at this
        subst this
        rcases hxa.1 with h | h <;> cases h
    | launchIdle i g hg hp he => exact oneReader_put h hg id
    | launch i g hg hp he =>
      intro j x hx hxa
      simp only [State.put, List.getElem?_set] at hx
      split at hx
      · rename_i hij; subst hij; exact ⟨rfl, rfl⟩
      · have := (h j x hx hxa).1
        rw [he] at this
        cases this
    | stop => exact absurd rfl hl
    | stopIdle => exact h
    | cancel i g hg hc => exact fun j x hx hxa => oneReader_put h hg (g' := { g with cancelled := true }) id j x hx hxa
    | cancelIdle => exact h
    | cancelGen i g hg => exact oneReader_put h hg id
    | over =>
      intro j x hx hxa
      dsimp only at hx
      rw [List.getElem?_map, Option.map_eq_some_iff] at hx
      obtain ⟨y, hy, rfl⟩ := hx
      exact h j y hy hxa
    | publish => exact h
    | publishIdle => exact h
    | message i g hg hr => exact oneReader_put h hg fun hx => ⟨Or.inl hr, hx.2⟩
    | failed i g hg hr hd => exact oneReader_put h hg fun hx => by rcases hx.1 with h | h <;> cases h
    | crash => exact h
    | send i g hg hr hp => exact oneReader_put h hg fun hx => ⟨Or.inr hr, hx.2⟩
    | quit i g hg hr hd => exact oneReader_put h hg fun hx => by rcases hx.1 with h | h <;> cases h
    | receive i g hg hp hc => exact oneReader_put h hg id
    | leave i g hg hp hc => exact oneReader_put h hg id

/-- C105. However often gossip is started and stopped, a topic has at most one reader that was not told to stop; there is one
only while gossip is switched on, and stopping gossip reaches it. -/
theorem C105_one_reader (cap : Cap) (s : GossipRun.State) (h : GossipRun.Reachable cap s) :
    (∀ (i j : Nat) g g', s.gens[i]? = some g → s.gens[j]? = some g' → ReaderActive g → ReaderActive g' → i = j) ∧
    (∀ (i : Nat) g, s.gens[i]? = some g → ReaderActive g → s.enabled = true) ∧
    (∀ s', GossipRun.step cap s .stop = some s' → ∀ (i : Nat) g, s'.gens[i]? = some g → ¬ ReaderActive g) := by
  obtain ⟨ls, hr⟩ := h
  have inv : OneReader s := run_inv (cap := cap) OneReader (fun _ => True) (fun _ _ _ h _ hs => oneReader_step h hs) ls _ s
    (by intro i g hg; simp [GossipRun.init] at hg) (fun _ _ => trivial) hr
  refine ⟨fun i j g g' hi hj hg hg' => ?_, fun i g hi hg => (inv i g hi hg).1, fun s' hs i g hi hg => ?_⟩
  · exact Option.some.inj ((inv i g hi hg).2.symm.trans (inv j g' hj hg').2)
  · have h1 := (oneReader_step inv hs i g hi hg).1
    simp only [GossipRun.step] at hs
    split at hs
    · cases hs
    split at hs
    · split at hs
      · split at hs
        · cases hs; cases h1
        · cases hs
      · cases hs
    · rename_i he; cases hs; exact he h1

/-- Gossip started twice, stopped and started again: three listeners, one active reader. -/
example : ∃ s, GossipRun.run 8 GossipRun.init [.start, .launch 0, .start, .launch 1, .stop, .start, .launch 2, .message 2] = some s ∧
    s.gens.length = 3 ∧ ∃ g, s.gens[2]? = some g ∧ ReaderActive g := ⟨_, rfl, rfl, _, rfl, Or.inr rfl, rfl⟩

end Reader

end KP2P

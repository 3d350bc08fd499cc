import Verif.Proof.AllAccepted
import Verif.Props.ChainLink
/-!
# C125: blocks handed over in any order are all accepted
-/

namespace KP2P
open Link

/-- What has become of a call when nothing is under way: its block waits, it was answered, or it was refused. -/
theorem Link.call_cases {o : AppOpts} {s : AState} {r : Nat} {b : Blk} (hr : App.Reachable o s) (hrest : App.AtRest s)
    (hc : Obs.call r b ∈ s.log) :
    (∃ x, s.byId.get b.id = some x ∧ r ∈ x.chans) ∨ (∃ e, Obs.answer r e ∈ s.log) ∨ ∃ e, Obs.refused r e ∈ s.log := by
  have hcount := C08_exactly_once hr r b hc
  have h1 : (App.queuedCalls s).count r = 0 := by unfold App.queuedCalls; rw [hrest.newQ]; rfl
  by_cases h2 : (App.answered s.log).count r = 0
  · by_cases h3 : (App.refusedCalls s.log).count r = 0
    · left
      have h4 : r ∈ App.held s := List.count_pos_iff.1 (by omega)
      obtain ⟨⟨c, x⟩, hx, hrx⟩ := List.mem_flatMap.1 h4
      have hg := (GoMap.get_eq_some_iff _ _ _).2 hx
      obtain ⟨b', hb', hid⟩ := (App.prov_reachable hr).chans c x r hg hrx
      have := (App.prov_reachable hr).callInj r b b' hc hb'
      subst this
      exact ⟨x, by rw [hid]; exact hg, hrx⟩
    · right; right
      have := List.count_pos_iff.1 (Nat.pos_of_ne_zero h3)
      obtain ⟨x, hx, hx'⟩ := List.mem_filterMap.1 this
      cases x <;> simp at hx'
      subst hx'; exact ⟨_, hx⟩
  · right; left
    exact mem_answered (List.count_pos_iff.1 (Nat.pos_of_ne_zero h2))

theorem Link.not_helped {s : Link.State} {b : Blk} (hs : Settled s) (h : Helped (Coming s b) s.app b) : False := by
  rcases h with ⟨m, h1⟩ | (h1 | ⟨t, h1⟩) | ⟨a, h1, _⟩ | ⟨⟨f, h1⟩, _⟩ | ⟨a, h1, _⟩
  · rw [hs.news] at h1; cases h1
  · rw [hs.app.tries] at h1; cases h1
  · rw [hs.app.retries] at h1; cases h1
  · rw [hs.app.apps] at h1; cases h1
  · rw [hs.app.tries] at h1; cases h1
  · rw [hs.app.apps] at h1; cases h1

theorem Link.all_done {o : AppOpts} {S : Blk → Prop} {s : Link.State} (ho : GoodOpts o) (h : Reach o (Fit S o) s)
    (hs : Settled s) (ht : Truthful S s) (hS : HandedOver S s) (hov : s.app.highest.toNat + 1 < 2 ^ 64) :
    ∀ b, S b → Has s b.id ∧ ¬ App.Waiting s.app b := by
  have hr := reach_app h
  obtain ⟨hsafe, hkept⟩ := reach_safe ho h hS.clean
  have key : ∀ n b, S b → b.height.toNat = n → Has s b.id ∧ ¬ App.Waiting s.app b := by
    intro n
    induction n using Nat.strong_induction_on with
    | _ n ih =>
      intro b hb hn
      have hpar : ∃ h, (b.previous, h) ∈ s.accepted ∧ b.height.toNat ≤ h.toNat + 1 := by
        rcases hS.roots b hb with ⟨p, hp, hid, hph⟩ | h1
        · obtain ⟨h, hh⟩ := (ih p.height.toNat (by omega) p hp rfl).1
          refine ⟨h, by rw [← hid]; exact hh, ?_⟩
          rw [(ht p hp h hh).1]; omega
        · exact h1
      obtain ⟨m, hm, hfit⟩ := hpar
      have hnw : ¬ App.Waiting s.app b := by
        intro hw
        rcases hkept hov b hb hw m hm hfit with h1 | ⟨p, hp, _, hph, h1⟩
        · exact not_helped hs h1
        · rcases h1 with h1 | ⟨f, h1⟩ | ⟨t, h1⟩ | ⟨a, h1, _⟩
          · exact (ih p.height.toNat (by omega) p hp rfl).2 h1
          · rw [hs.app.tries] at h1; cases h1
          · rw [hs.app.retries] at h1; cases h1
          · rw [hs.app.apps] at h1; cases h1
      refine ⟨?_, hnw⟩
      obtain ⟨r, hcall⟩ := hS.called b hb
      rcases call_cases hr hs.app hcall with ⟨x, hx, _⟩ | ⟨e, he⟩ | ⟨e, he⟩
      · exact absurd ⟨x, hx, hS.clean.one b hb _ ((App.prov_reachable hr).entries _ x hx)
          ((App.inv_reachable hr).idx.key _ x hx)⟩ hnw
      · exact (hsafe.ans b r e hb hcall he).2
      · exact absurd he (hS.clean.refused b r e hb hcall)
  exact fun b hb => key _ b hb rfl

/-- C125, what holds: once everything has settled, all the blocks are accepted by the chain. Assumed: the blocks (any set, of
any shape) form branches that start at accepted blocks; the chain tells the truth and is willing to take them; none was turned
away; and those of which an attempt had come too early, and was not dealt with yet when the parent was reported, were recent
then. The last assumption is needed: `C125_old_block_refuted`. The order in which the blocks are handed over does not matter,
nor what other blocks are, nor what happens to these. -/
theorem C125_all_accepted_partial {o : AppOpts} {S : Blk → Prop} {s : Link.State} (ho : GoodOpts o)
    (h : Reach o (Fit S o) s) (hs : Settled s) (ht : Truthful S s) (hS : HandedOver S s)
    (hov : s.app.highest.toNat + 1 < 2 ^ 64) (b : Blk) (hb : S b) : Has s b.id := (all_done ho h hs ht hS hov b hb).1

/-- C125, the callers: under the same assumptions every call for one of the blocks has returned, with success or because the
caller did not wait long enough. -/
theorem C125_callers_partial {o : AppOpts} {S : Blk → Prop} {s : Link.State} (ho : GoodOpts o)
    (h : Reach o (Fit S o) s) (hs : Settled s) (ht : Truthful S s) (hS : HandedOver S s)
    (hov : s.app.highest.toNat + 1 < 2 ^ 64) (b : Blk) (hb : S b) (r : Nat) (hc : Obs.call r b ∈ s.app.log) :
    Obs.answer r none ∈ s.app.log ∧
    (Obs.returned r none ∈ s.app.log ∨ Obs.returned r (some (.sentinel .blockApplicationTimeout)) ∈ s.app.log) := by
  have hr := reach_app h
  obtain ⟨hsafe, _⟩ := reach_safe ho h hS.clean
  have hprov := App.prov_reachable hr
  have hans : Obs.answer r none ∈ s.app.log := by
    rcases call_cases hr hs.app hc with ⟨x, hx, _⟩ | ⟨e, he⟩ | ⟨e, he⟩
    · exact absurd ⟨x, hx, hS.clean.one b hb _ (hprov.entries _ x hx) ((App.inv_reachable hr).idx.key _ x hx)⟩
        (all_done ho h hs ht hS hov b hb).2
    · obtain ⟨rfl, _⟩ := hsafe.ans b r e hb hc he
      exact he
    · exact absurd he (hS.clean.refused b r e hb hc)
  refine ⟨hans, ?_⟩
  have hcount := C08_caller_returns_once hr r b hc
  have h1 : s.app.waiting.count r = 0 := by
    rw [List.count_eq_zero]
    intro hw
    exact hs.app.callers r hw (List.mem_filterMap.2 ⟨_, hans, rfl⟩)
  have h2 : (App.refusedCalls s.app.log).count r = 0 := by
    rw [List.count_eq_zero]
    intro hm
    obtain ⟨x, hx, hx'⟩ := List.mem_filterMap.1 hm
    cases x <;> simp at hx'
    subst hx'
    exact hS.clean.refused b _ _ hb hc hx
  have h3 : r ∈ App.returnedCalls s.app.log := List.count_pos_iff.1 (by omega)
  obtain ⟨x, hx, hx'⟩ := List.mem_filterMap.1 h3
  cases x <;> simp at hx'
  rename_i r' e
  subst hx'
  rcases hprov.good _ hx with h4 | rfl
  · obtain ⟨rfl, _⟩ := hsafe.ans b _ e hb hc h4
    exact Or.inl hx
  · exact Or.inr hx

/-- C125 in the end: if from some moment on no calls and no fork heads come in and only finitely many more blocks are accepted,
then in the end all the blocks are accepted, and every call for them has returned with success or had timed out before. -/
theorem C125_in_the_end_partial {o : AppOpts} {S : Blk → Prop} {σ : Nat → Link.State} {ev : Nat → Link.Label}
    (ho : GoodOpts o) (h0 : Reach o (Fit S o) (σ 0)) (hh : (σ 0).app.hung = false) (hf : FairQuiet o σ ev)
    (hfit : ∀ n, Fit S o (σ n) (ev n)) (hS : ∃ M, ∀ n, M ≤ n → HandedOver S (σ n))
    (hov : ∀ n, (σ n).app.highest.toNat + 1 < 2 ^ 64) :
    ∃ N, ∀ n, N ≤ n → (∀ b, S b → Has (σ n) b.id) ∧ ∀ b r, S b → Obs.call r b ∈ (σ n).app.log →
      Obs.returned r none ∈ (σ n).app.log ∨ Obs.returned r (some (.sentinel .blockApplicationTimeout)) ∈ (σ n).app.log := by
  have hreach : ∀ n, Reach o (Fit S o) (σ n) := by
    intro n
    induction n with
    | zero => exact h0
    | succ n ih => exact .step ih (hfit n) (hf.exec n)
  obtain ⟨N, hN⟩ := C111_settles h0 hh hf hfit
  obtain ⟨M, hM⟩ := hS
  refine ⟨max N M, fun n hn => ?_⟩
  have h1 := hN n (Nat.le_trans (Nat.le_max_left _ _) hn)
  have h2 := hM n (Nat.le_trans (Nat.le_max_right _ _) hn)
  exact ⟨fun b hb => C125_all_accepted_partial ho (hreach n) h1 (hfit n).1 h2 (hov n) b hb,
    fun b r hb hc => (C125_callers_partial ho (hreach n) h1 (hfit n).1 h2 (hov n) b hb r hc).2⟩

/-! ## Concrete executions -/

namespace Link

/-! Checkers, for concrete executions and lists of blocks. -/

def truthfulB (bs : List Blk) (s : State) : Bool :=
  bs.all fun b => s.accepted.all fun x => !decide (x.1 = b.id) || (decide (x.2 = b.height) && decide (Has s b.previous))

theorem truthful_of {bs : List Blk} {s : State} (h : truthfulB bs s = true) : Truthful (· ∈ bs) s := by
  intro b hb n hn
  have := List.all_eq_true.1 (List.all_eq_true.1 h b hb) _ hn
  simpa using this

/-- A run whose steps are all checked; `time` says whether recency is checked as well. -/
def checkedFit (time : Bool) (bs : List Blk) (o : AppOpts) (s : State) : List Label → Option State
  | [] => some s
  | l :: ls =>
    if truthfulB bs s && (!time || inTimeB o s l) then
      match step o s l with
      | some s' => checkedFit time bs o s' ls
      | none => none
    else none

/-- `Fit`, with or without the assumption of recency. -/
def FitOr (time : Bool) (S : Blk → Prop) (o : AppOpts) (s : State) (l : Label) : Prop :=
  Truthful S s ∧ (time = true → ∀ b, S b → App.Waiting s.app b → Reports s l b.previous → TooEarly s.app b →
    Recent o s.app.now b)

theorem inTime_of {o : AppOpts} {s : State} {l : Label} (hidx : App.Idx s.app) (h : inTimeB o s l = true) : InTime o s l := by
  have fin : ∀ b id, App.Waiting s.app b → b.previous = id →
      ((App.waitingBlocks s.app).all fun b => !decide (b.previous = id) || !tooEarlyB s.app b ||
        recentB o s.app.now b) = true →
      TooEarly s.app b → Recent o s.app.now b := by
    rintro b id hwb hp hall ⟨a, ha, hai, e, hst, hun⟩
    have hte : tooEarlyB s.app b = true := by
      refine List.any_eq_true.2 ⟨a, ha, ?_⟩
      simp only [hai, decide_true, hst, hun, Bool.and_self]
    have := List.all_eq_true.1 hall b ((App.mem_waitingBlocks hidx b).2 hwb)
    simp only [hp, hte, decide_true, Bool.not_true, Bool.false_or, recentB, Bool.and_eq_true, decide_eq_true_eq] at this
    exact this
  rintro b hwb (⟨i, m, rfl, hn⟩ | ⟨i, c, rfl, ha, hid⟩)
  · simp only [inTimeB, hn] at h
    exact fin b _ hwb rfl h
  · simp only [inTimeB, ha] at h
    exact fin b _ hwb hid.symm h

theorem checkedFit_sound {time : Bool} {bs : List Blk} {o : AppOpts} {s s' : State} {ls : List Label}
    (h : Reach o (FitOr time (· ∈ bs) o) s) (hr : checkedFit time bs o s ls = some s') : Reach o (FitOr time (· ∈ bs) o) s' := by
  induction ls generalizing s with
  | nil => simp only [checkedFit, Option.some.injEq] at hr; exact hr ▸ h
  | cons l ls ih =>
    simp only [checkedFit] at hr
    split at hr
    · rename_i hb
      split at hr
      · rename_i t hst
        simp only [Bool.and_eq_true, Bool.or_eq_true, Bool.not_eq_true'] at hb
        refine ih (.step h ⟨truthful_of hb.1, fun ht b _ hw hrep hte => ?_⟩ hst) hr
        rcases hb.2 with h1 | h1
        · rw [ht] at h1; cases h1
        · exact inTime_of (reach_inv h).inv.idx h1 b hw hrep hte
      · cases hr
    · cases hr

theorem fit_of {S : Blk → Prop} {o : AppOpts} {s : State} (h : Reach o (FitOr true S o) s) : Reach o (Fit S o) s := by
  induction h with
  | init hi lib now known hk => exact .init hi lib now known hk
  | step _ hp hst ih => exact .step ih ⟨hp.1, hp.2 rfl⟩ hst

def willingB : Option Err → Bool
  | none => true
  | e => errIs e .unknownPreviousBlock || errIs e .blockState

def handedB (bs : List Blk) (s : State) : Bool :=
  s.app.log.all (fun
    | .call _ c => bs.all fun b => decide (c.id = b.id → c = b)
    | .refused _ _ => false
    | .answer _ e => decide (e ≠ some (.sentinel .maxHeight) ∧ e ≠ some (.sentinel .maxPendingBlocks) ∧
        e ≠ some (.sentinel .blockIrreversibility))
    | .status _ e => willingB e
    | .delayTimeout _ => false
    | _ => true) &&
  bs.all (fun b => s.app.log.any fun
    | .call _ c => decide (c = b)
    | _ => false) &&
  bs.all (fun b => (bs.any fun p => decide (p.id = b.previous ∧ p.height.toNat + 1 = b.height.toNat)) ||
    ((s.accepted.any fun x => decide (x.1 = b.previous ∧ b.height.toNat ≤ x.2.toNat + 1)) &&
      s.app.log.all fun
        | .status c e => decide (c.id = b.previous → e = none)
        | _ => true))

theorem handed_of {bs : List Blk} {s : State} (h : handedB bs s = true) : HandedOver (· ∈ bs) s := by
  simp only [handedB, Bool.and_eq_true] at h
  obtain ⟨⟨h1, h2⟩, h3⟩ := h
  have hl := fun x hx => List.all_eq_true.1 h1 x hx
  refine ⟨⟨?_, ?_, ?_, ?_, ?_, ?_⟩, ?_, ?_⟩
  · rintro b hb c ⟨r, hc⟩ hid
    have := List.all_eq_true.1 (hl _ hc) b hb
    simp only [decide_eq_true_eq] at this
    exact this hid
  · intro b r e _ _ hr
    exact absurd (hl _ hr) (by simp)
  · intro b r x _ hx _ ha
    have := hl _ ha
    simp only [decide_eq_true_eq] at this
    rcases hx with rfl | rfl | rfl
    · exact this.1 rfl
    · exact this.2.1 rfl
    · exact this.2.2 rfl
  · intro b e _ hst
    have := hl _ hst
    unfold Willing
    cases e with
    | none => exact Or.inl rfl
    | some e =>
      simp only [willingB, Bool.or_eq_true] at this
      exact Or.inr this
  · intro b _ hd
    exact absurd (hl _ hd) (by simp)
  · intro b hb
    have := List.all_eq_true.1 h3 b hb
    rcases Bool.or_eq_true_iff.1 this with h4 | h4
    · left
      obtain ⟨p, hp, h5⟩ := List.any_eq_true.1 h4
      simp only [decide_eq_true_eq] at h5
      exact ⟨p, hp, h5⟩
    · right
      intro c e hid hst
      have := List.all_eq_true.1 (Bool.and_eq_true_iff.1 h4).2 _ hst
      simp only [decide_eq_true_eq] at this
      exact this hid
  · intro b hb
    obtain ⟨x, hx, h4⟩ := List.any_eq_true.1 (List.all_eq_true.1 h2 b hb)
    cases x <;> simp only [decide_eq_true_eq, Bool.false_eq_true] at h4
    subst h4
    exact ⟨_, hx⟩
  · intro b hb
    have := List.all_eq_true.1 h3 b hb
    rcases Bool.or_eq_true_iff.1 this with h4 | h4
    · left
      obtain ⟨p, hp, h5⟩ := List.any_eq_true.1 h4
      simp only [decide_eq_true_eq] at h5
      exact ⟨p, hp, h5⟩
    · right
      obtain ⟨x, hx, h5⟩ := List.any_eq_true.1 (Bool.and_eq_true_iff.1 h4).1
      simp only [decide_eq_true_eq] at h5
      exact ⟨x.2, by rw [← h5.1]; exact hx, h5.2⟩

/-- Where a checked run ends. -/
def fitEnd (time : Bool) (bs : List Blk) (ls : List Label) : State := (checkedFit time bs {} exL0 ls).getD exL0

theorem fitEnd_reach {time : Bool} {bs : List Blk} {ls : List Label} (h : (checkedFit time bs {} exL0 ls).isSome = true) :
    Reach {} (FitOr time (· ∈ bs) {}) (fitEnd time bs ls) := by
  obtain ⟨s, hs⟩ := Option.isSome_iff_exists.1 h
  unfold fitEnd
  rw [hs]
  exact checkedFit_sound (exL0_reach _ _) hs

/-- The parent of `exLB`. -/
def exLA : Blk := ⟨[0], [8], 10, 0, [], []⟩

/-- Three blocks handed over in reverse, all a minute old: the grandchild is too high and waits; the child is submitted and comes
too early; then the parent is applied, and the others follow. -/
def exLThree : List Label :=
  [.act (.tick 60000000000),
   .act (.applyBlock exLC), .act (.newBlock 0), .act (.applyBlock exLB), .act (.newBlock 0), .act (.tryBlock 0), .act (.work 0),
   .act (.rpcReturn 0 (some (.sentinel .unknownPreviousBlock))), .act (.status 0),
   .act (.applyBlock exLA), .act (.newBlock 0), .act (.tryBlock 0), .act (.work 0), .accept [0] [8] 10,
   .act (.rpcReturn 0 none), .deliver 0, .act (.status 0), .act (.tryBlock 0), .act (.tryBlock 0), .act (.work 0),
   .accept [1] [0] 11, .act (.rpcReturn 0 none), .act (.status 0), .act (.tryBlock 0), .act (.work 0), .deliver 0,
   .accept [2] [1] 12, .act (.rpcReturn 0 none), .act (.tryBlock 0), .act (.status 0), .deliver 0,
   .act (.callerReturns 0), .act (.callerReturns 2), .act (.callerReturns 1)]

def exLThreeEnd : State := fitEnd true [exLA, exLB, exLC] exLThree

example : Reach {} (Fit (· ∈ [exLA, exLB, exLC]) {}) exLThreeEnd ∧ Settled exLThreeEnd ∧
    Truthful (· ∈ [exLA, exLB, exLC]) exLThreeEnd ∧ HandedOver (· ∈ [exLA, exLB, exLC]) exLThreeEnd ∧
    exLThreeEnd.app.highest.toNat + 1 < 2 ^ 64 ∧ GoodOpts {} :=
  ⟨fit_of (fitEnd_reach (by decide +kernel)), settled_of (by decide +kernel), truthful_of (by decide +kernel),
    handed_of (by decide +kernel), by decide +kernel, ⟨by decide, by decide⟩⟩

example : Has exLThreeEnd [2] ∧ Obs.returned 0 none ∈ exLThreeEnd.app.log ∧
    Obs.status exLB (some (.sentinel .unknownPreviousBlock)) ∈ exLThreeEnd.app.log := by decide +kernel

end Link

/-- Without the assumption of recency C125 fails: the parent of a block older than the threshold is accepted and announced after
the chain has said that the parent is missing, and before the main loop has taken notice. The block is never accepted, and
its caller waits until it gives up. -/
theorem C125_old_block_refuted :
    ¬ ∀ (o : AppOpts) (S : Blk → Prop) (s : Link.State), GoodOpts o → Reach o (FitOr false S o) s → Settled s →
      Truthful S s → HandedOver S s → s.app.highest.toNat + 1 < 2 ^ 64 → ∀ b, S b → Has s b.id := by
  intro hall
  have := hall {} (· ∈ [exLB]) (fitEnd false [exLB] exLOld) ⟨by decide, by decide⟩ (fitEnd_reach (by decide +kernel))
    (settled_of (by decide +kernel)) (truthful_of (by decide +kernel)) (handed_of (by decide +kernel)) (by decide +kernel)
    exLB (by decide)
  exact absurd this (by decide +kernel)

end KP2P

import Verif.Props.ApplicatorMore
import Verif.Props.GossipValidate
/-!
# C152: blocks that are dated ahead of the clock, and the peers that pass them on
-/

namespace KP2P
open App Spec

/-! ## When the waiting time-out of a block can fire -/

/-- What a step does to the timers of blocks held back, to the clock and to the record of fired time-outs. -/
private theorem timers_step {o : AppOpts} {s s' : AState} {l : Label} (hinv : Inv o s) (hst : step o s l = some s') :
    (∀ a ∈ s'.apps, (∃ a' ∈ s.apps, a'.blk = a.blk ∧ ∀ t t', a.stage = .delaying t t' → a' = a) ∨
      ((∃ x ∈ s.tries, x.1 = a.blk) ∧ ∀ t t', a.stage = .delaying t t' → t' = s.now + o.delayTimeout)) ∧
    s.now ≤ s'.now ∧
    ∀ b, Obs.delayTimeout b ∈ s'.log → Obs.delayTimeout b ∈ s.log ∨
      ∃ t t', (⟨b, .delaying t t'⟩ : BApp) ∈ s.apps ∧ t' ≤ s.now ∧ s'.now = s.now := by
  have keep : ∀ {s' : AState}, (∀ a ∈ s'.apps, a ∈ s.apps) →
      ∀ a ∈ s'.apps, (∃ a' ∈ s.apps, a'.blk = a.blk ∧ ∀ t t', a.stage = .delaying t t' → a' = a) ∨
      ((∃ x ∈ s.tries, x.1 = a.blk) ∧ ∀ t t', a.stage = .delaying t t' → t' = s.now + o.delayTimeout) :=
    fun h a ha => Or.inl ⟨a, h a ha, rfl, fun _ _ _ => rfl⟩
  have hset : ∀ {i : Nat} {b : Blk} {st st' : Stage}, s.apps[i]? = some ⟨b, st⟩ → (∀ t t', st' ≠ .delaying t t') →
      ∀ a ∈ s.apps.set i ⟨b, st'⟩, (∃ a' ∈ s.apps, a'.blk = a.blk ∧ ∀ t t', a.stage = .delaying t t' → a' = a) ∨
      ((∃ x ∈ s.tries, x.1 = a.blk) ∧ ∀ t t', a.stage = .delaying t t' → t' = s.now + o.delayTimeout) := by
    intro i b st st' hg hn a ha
    rcases List.mem_or_eq_of_mem_set ha with ha | rfl
    · exact Or.inl ⟨a, ha, rfl, fun _ _ _ => rfl⟩
    · exact Or.inl ⟨_, mem_of_getElem? hg, rfl, fun t t' h => absurd h (hn t t')⟩
  cases l with
  | applyBlock b =>
    rcases step_applyBlock hst with ⟨e, _, rfl⟩ | ⟨_, rfl⟩ <;>
      exact ⟨keep fun _ h => h, Int.le_refl _, fun b hb => Or.inl (by simpa using hb)⟩
  | callerReturns r =>
    obtain ⟨_, e, _, rfl⟩ := step_callerReturns hst
    exact ⟨keep fun _ h => h, Int.le_refl _, fun b hb => Or.inl (by simpa using hb)⟩
  | callerTimesOut r =>
    obtain ⟨_, rfl⟩ := step_callerTimesOut hst
    exact ⟨keep fun _ h => h, Int.le_refl _, fun b hb => Or.inl (by simpa using hb)⟩
  | newBlock i =>
    obtain ⟨_, r, b, hq, rfl⟩ := step_newBlock hst
    unfold handleNewBlock
    cases ha : admission o { s with newQ := s.newQ.eraseIdx i } b with
    | some e => exact ⟨keep fun _ h => h, Int.le_refl _, fun b hb => Or.inl (by simpa [answerAll] using hb)⟩
    | none =>
      simp only
      obtain ⟨m, p, hh', hf⟩ := addTables_frame { s with newQ := s.newQ.eraseIdx i } r b
      rcases addBlockEntry_cases { s with newQ := s.newQ.eraseIdx i } r b with ⟨_, he⟩ | ⟨_, _, he⟩ <;>
        (rw [he, hf]; exact ⟨keep fun _ h => h, Int.le_refl _, fun b hb => Or.inl (by simpa using hb)⟩)
  | forkHeads heads lib =>
    obtain ⟨_, rfl⟩ := step_forkHeads hst
    rw [handleForkHeads_eq]
    obtain ⟨_, h2, _⟩ := evict_spec (heights s.lib lib)
      { s with lib := lib, watchdog := s.watchdog.purge lib, tries := s.tries ++ heads.flatMap (kids o s) }
      (hinv.idx.of_eq rfl rfl rfl)
    obtain ⟨rs, hl, _⟩ := h2.log
    refine ⟨keep fun a ha => ?_, Int.le_of_eq h2.now.symm, fun b hb => Or.inl ?_⟩
    · have := h2.apps
      simp only at this ha
      rw [this] at ha
      exact ha
    · simp only at hb hl
      rw [hl] at hb
      simpa using hb
  | broadcast id height =>
    obtain ⟨_, rfl⟩ := step_broadcast hst
    rw [handleBroadcast_eq]
    exact ⟨keep fun _ h => h, Int.le_refl _, fun b hb => Or.inl hb⟩
  | tryBlock i =>
    obtain ⟨_, b, f, ht, rfl⟩ := step_tryBlock hst
    unfold handleTry
    split
    · split <;> exact ⟨keep fun _ h => h, Int.le_refl _, fun b hb => Or.inl hb⟩
    · refine ⟨fun a ha => ?_, Int.le_refl _, fun b hb => Or.inl (by simpa using hb)⟩
      rcases List.mem_append.1 ha with ha | ha
      · exact Or.inl ⟨a, ha, rfl, fun _ _ _ => rfl⟩
      · right
        simp only [List.mem_singleton] at ha
        subst ha
        unfold beginApp
        simp only
        split
        · refine ⟨⟨_, mem_of_getElem? ht, rfl⟩, fun t t' h => ?_⟩
          simp only [Stage.delaying.injEq] at h
          exact h.2.symm
        · exact ⟨⟨_, mem_of_getElem? ht, rfl⟩, fun t t' h => by cases h⟩
  | status i =>
    obtain ⟨_, b, e, ha, rfl⟩ := step_status hst
    have hap : ∀ x ∈ s.apps.eraseIdx i, x ∈ s.apps := fun x hx => List.mem_of_mem_eraseIdx hx
    rcases handleStatus_cases o { s with apps := s.apps.eraseIdx i } b e with ⟨_, hs⟩ | ⟨_, _, hs⟩ | ⟨_, _, hs⟩
    · rw [hs]; exact ⟨keep hap, Int.le_refl _, fun b hb => Or.inl (by simpa [trySend, afterStatus] using hb)⟩
    · rw [hs]; exact ⟨keep hap, Int.le_refl _, fun b hb => Or.inl (by simpa [afterStatus] using hb)⟩
    · rw [hs]
      refine ⟨keep fun a ha => ?_, by rw [(onlyRemoved_remove _ _ _).now]; exact Int.le_refl _, fun b hb => Or.inl ?_⟩
      · rw [(onlyRemoved_remove _ _ _).apps] at ha
        exact hap a ha
      · rw [log_remove] at hb
        simpa [afterStatus] using hb
  | delayDone i =>
    obtain ⟨b, t, t', ha, ht, rfl⟩ := step_delayDone hst
    exact ⟨hset ha (by simp), Int.le_refl _, fun b hb => Or.inl hb⟩
  | delayTimeout i =>
    obtain ⟨b, t, t', ha, ht, rfl⟩ := step_delayTimeout hst
    refine ⟨hset ha (by simp), Int.le_refl _, fun c hc => ?_⟩
    simp only [List.mem_cons, Obs.delayTimeout.injEq] at hc
    rcases hc with rfl | hc
    · exact Or.inr ⟨t, t', mem_of_getElem? ha, ht, rfl⟩
    · exact Or.inl hc
  | work i =>
    obtain ⟨b, ha, ⟨_, rfl⟩ | ⟨_, rfl⟩⟩ := step_work hst <;>
      exact ⟨hset ha (by simp), Int.le_refl _, fun b hb => Or.inl (by simpa using hb)⟩
  | rpcReturn i e =>
    obtain ⟨b, ha, rfl⟩ := step_rpcReturn hst
    exact ⟨hset ha (by simp), Int.le_refl _, fun b hb => Or.inl (by simpa using hb)⟩
  | retryDue i =>
    obtain ⟨t, b, _, _, rfl⟩ := step_retryDue hst
    exact ⟨keep fun _ h => h, Int.le_refl _, fun b hb => Or.inl hb⟩
  | tick d =>
    rw [step_tick hst]
    exact ⟨keep fun _ h => h, by simp only; omega, fun b hb => Or.inl hb⟩

/-- No waiting time-out fires for an id before `DelayTimeout` has passed since the id was first asked for. -/
private theorem no_timeout_yet {o : AppOpts} {s0 s : AState} {ls : List Label} (h0 : Reachable o s0)
    (hr : App.run o s0 ls = some s) (id : Bytes) (hnew : ∀ r b, Obs.call r b ∈ s0.log → b.id ≠ id)
    (ht : s.now < s0.now + o.delayTimeout) : ∀ b, Obs.delayTimeout b ∈ s.log → b.id ≠ id := by
  have key : Inv o s ∧ s0.now ≤ s.now ∧
      (∀ a ∈ s.apps, a.blk.id = id → ∀ t t', a.stage = .delaying t t' → s0.now + o.delayTimeout ≤ t') ∧
      (s.now < s0.now + o.delayTimeout → ∀ b, Obs.delayTimeout b ∈ s.log → b.id ≠ id) := by
    refine run_induction (P := fun s => Inv o s ∧ s0.now ≤ s.now ∧
      (∀ a ∈ s.apps, a.blk.id = id → ∀ t t', a.stage = .delaying t t' → s0.now + o.delayTimeout ≤ t') ∧
      (s.now < s0.now + o.delayTimeout → ∀ b, Obs.delayTimeout b ∈ s.log → b.id ≠ id)) ?_ ?_ hr
    · have hp := prov_reachable h0
      refine ⟨inv_reachable h0, Int.le_refl _, fun a ha hid => ?_, fun _ b hb => ?_⟩
      · obtain ⟨r, hc⟩ := hp.apps a ha
        exact absurd hid (hnew r _ hc)
      · obtain ⟨r, hc⟩ := hp.good _ hb
        exact hnew r _ hc
    · rintro s l s' ⟨hi, hn, ha, hl⟩ hst
      obtain ⟨h1, h2, h3⟩ := timers_step hi hst
      refine ⟨inv_step o s l s' hi hst, Int.le_trans hn h2, fun a ha' hid t t' hs => ?_, fun hlt b hb hid => ?_⟩
      · rcases h1 a ha' with ⟨a', hm, _, he⟩ | ⟨_, he⟩
        · have := he t t' hs
          subst this
          exact ha a' hm hid t t' hs
        · rw [he t t' hs]; omega
      · rcases h3 b hb with hb | ⟨t, t', hm, ht, hnow⟩
        · exact hl (by omega) b hb hid
        · have := ha _ hm hid t t' rfl
          omega
  exact key.2.2.2 ht

/-- Whatever has been submitted was due by now. -/
private theorem submitted_due {o : AppOpts} {hi lib : UInt64} {T0 : Int} {ls : List Label} {s : AState}
    (hr : App.run o (App.init hi lib T0) ls = some s) (hlife : s.now - T0 < 9223372036854775807) :
    ∀ b, Obs.submit b ∈ s.log → goBlockTime b.timestamp ≤ s.now + o.delayThreshold := by
  induction ls using List.reverseRecOn generalizing s with
  | nil =>
    simp only [App.run, Option.some.injEq] at hr
    subst hr
    intro b hb; simp [App.init] at hb
  | append_singleton ls l ih =>
    obtain ⟨s1, h1, hst⟩ := run_snoc hr
    have hmono := (timers_step (inv_reachable ⟨hi, lib, T0, ls, h1⟩) hst).2.1
    have hlife' : s1.now - T0 < 9223372036854775807 := by omega
    obtain ⟨new, hl, hs⟩ := submit_time h1 hst hlife'
    intro b hb
    rw [hl, List.mem_append] at hb
    rcases hb with hb | hb
    · have := hs b hb; omega
    · have := ih h1 hlife' b hb; omega

/-! ## C152 -/

/-- C152, the part of it that fails, in full generality: a block dated so far ahead that it is still more than
`DelayThreshold` plus one second ahead at the end of a call, and that was not known when the call began, is not submitted
during the call, and the call does not return success (as long as it takes less than `DelayTimeout`, and as long as the
requests for its id agree on the time stamp). -/
theorem C152_too_early_partial {o : AppOpts} {hi lib : UInt64} {T0 : Int} {ls0 ls : List Label} {s0 s : AState}
    (h0 : App.run o (App.init hi lib T0) ls0 = some s0) (hr : App.run o s0 ls = some s)
    (hlife : s.now - T0 < 9223372036854775807) (r : Nat) (b : Blk) (hc : Obs.call r b ∈ s.log)
    (hnew : ∀ r' b', Obs.call r' b' ∈ s0.log → b'.id ≠ b.id)
    (hsame : ∀ r' b', Obs.call r' b' ∈ s.log → b'.id = b.id → b'.timestamp = b.timestamp)
    (hshort : s.now < s0.now + o.delayTimeout)
    (hearly : s.now + o.delayThreshold + second ≤ (b.timestamp.toNat : Int) * 1000000) :
    (∀ b', Obs.submit b' ∈ s.log → b'.id ≠ b.id) ∧ Obs.returned r none ∉ s.log := by
  have hre0 : Reachable o s0 := ⟨hi, lib, T0, ls0, h0⟩
  have hrun : App.run o (App.init hi lib T0) (ls0 ++ ls) = some s := by
    rw [run_append, h0]; exact hr
  have hre : Reachable o s := ⟨hi, lib, T0, _, hrun⟩
  have hsub : ∀ b', Obs.submit b' ∈ s.log → b'.id ≠ b.id := by
    intro b' hb' hid
    obtain ⟨r', hc'⟩ := (prov_reachable hre).good _ hb'
    have h1 := hsame r' b' hc' hid
    have h2 := submitted_due hrun hlife b' hb'
    rw [h1] at h2
    unfold goBlockTime at h2
    unfold second at hearly
    omega
  refine ⟨hsub, fun hret => ?_⟩
  obtain ⟨b', hid, hs, _⟩ := C14_accepted_partial hre r b hc hret (no_timeout_yet hre0 hr b.id hnew hshort)
  exact hsub b' hs hid

/-- If the applicator does not answer a block with success, the message is not passed on and the peer it came from is charged
with a failed block. -/
private theorem charged_of_failure (e : GossipValidate.Env RawBlock) (m : GossipValidate.Msg) (b : RawBlock) (hb : Handed e m b)
    (ha : e.apply b ≠ none) :
    (GossipValidate.validateBlock e m).accept = false ∧
    ∃ y, (GossipValidate.validateBlock e m).report = some (m.receivedFrom, y) ∧ (getScoreForError .default y).toNat = 5000 := by
  obtain ⟨x, hx⟩ := Option.ne_none_iff_exists'.1 ha
  refine ⟨(C49_not_relayed_partial e m b x hb hx).1, ?_⟩
  obtain ⟨hd, hs, hc, hl⟩ := hb
  refine ⟨wrapS .blockApplication x, ?_, rfl⟩
  have : GossipValidate.applyBlock e m = ([b], some (wrapS .blockApplication x)) := by
    obtain ⟨hi, h, hh, hp⟩ := hc
    unfold GossipValidate.applyBlock
    rw [hd]
    simp only [hs, if_false]
    cases h1 : b.id with
    | none => exact absurd h1 hi
    | some i =>
      simp only [hh]
      cases h2 : h.previous with
      | none => exact absurd h2 hp
      | some p =>
        simp only
        rw [if_neg (fun h' => hl ⟨h, hh, UInt64.lt_iff_toNat_lt.1 h'⟩), hx]
  unfold GossipValidate.validateBlock
  rw [this]
  rfl

/-- C152, what that means for gossip: if the call was made for a gossiped block, then, whatever it has returned by then, the
message is not passed on and the peer it came from is charged with a failed block, 5000 with the default options. -/
theorem C152_charged_partial {o : AppOpts} {hi lib : UInt64} {T0 : Int} {ls0 ls : List Label} {s0 s : AState}
    (h0 : App.run o (App.init hi lib T0) ls0 = some s0) (hr : App.run o s0 ls = some s)
    (hlife : s.now - T0 < 9223372036854775807) (r : Nat) (b : Blk) (hc : Obs.call r b ∈ s.log)
    (hnew : ∀ r' b', Obs.call r' b' ∈ s0.log → b'.id ≠ b.id)
    (hsame : ∀ r' b', Obs.call r' b' ∈ s.log → b'.id = b.id → b'.timestamp = b.timestamp)
    (hshort : s.now < s0.now + o.delayTimeout)
    (hearly : s.now + o.delayThreshold + second ≤ (b.timestamp.toNat : Int) * 1000000)
    (e : GossipValidate.Env RawBlock) (m : GossipValidate.Msg) (raw : RawBlock) (hb : Handed e m raw)
    (_ : raw.toBlk = some b) (hret : Obs.returned r (e.apply raw) ∈ s.log) :
    (GossipValidate.validateBlock e m).accept = false ∧
    ∃ y, (GossipValidate.validateBlock e m).report = some (m.receivedFrom, y) ∧ (getScoreForError .default y).toNat = 5000 := by
  refine charged_of_failure e m raw hb fun hn => ?_
  rw [hn] at hret
  exact (C152_too_early_partial h0 hr hlife r b hc hnew hsame hshort hearly).2 hret

private theorem answerOf_answers (rs : List Nat) (e : Option Err) (log : List Obs) (r : Nat) (h : r ∈ rs) :
    answerOf (rs.map (fun r => Obs.answer r e) ++ log) r = some e := by
  unfold answerOf
  induction rs with
  | nil => cases h
  | cons x xs ih =>
    simp only [List.map_cons, List.cons_append, List.findSome?_cons]
    by_cases hx : x = r
    · simp [hx]
    · simp only [hx, if_false]
      exact ih (by simpa [Ne.symm hx] using h)

/-- C152, what holds: a block that is waited for and due to be tried, dated ahead by no more than `DelayThreshold` and some
time `w`, can be accepted by the chain, and the call for it return success, after `w`. (With `w` within the time-out of the
call, the caller does not see a time-out unless the chain or the scheduler is slow.) -/
theorem C152_in_time_partial {o : AppOpts} {s : AState} (h : Reachable o s) (hh : s.hung = false) (i : Nat) (b : Blk) (f : Bool)
    (ht : s.tries[i]? = some (b, f)) (x : BEntry) (hx : s.byId.get b.id = some x) (r : Nat) (hr : r ∈ x.chans)
    (hw : r ∈ s.waiting) (hno : ∀ a ∈ s.apps, a.blk.id ≠ b.id) (hl : s.lib < b.height) (w : Nat)
    (hdue : (b.timestamp.toNat : Int) * 1000000 ≤ s.now + w + o.delayThreshold) :
    ∃ ls s', App.run o s ls = some s' ∧ s'.now = s.now + w ∧ Obs.submit b ∈ s'.log ∧ Obs.verdict b none ∈ s'.log ∧
      Obs.returned r none ∈ s'.log := by
  have hp : s.pending.has b.id = false := by
    rw [Bool.eq_false_iff]
    intro hp
    obtain ⟨a, ha, he⟩ := List.mem_map.1 (((inv_reachable h).pend b.id).1 hp)
    exact hno a ha he
  have hbt : goBlockTime b.timestamp ≤ s.now + w + o.delayThreshold := by unfold goBlockTime; omega
  have hnl : ¬ b.height ≤ s.lib := UInt64.not_le.2 hl
  -- up to the moment when the block waits for a worker
  let sq : AState := { s with tries := s.tries.eraseIdx i, pending := s.pending.set b.id (), now := s.now + w,
                              apps := s.apps ++ [⟨b, .queued⟩], log := .start b :: s.log }
  obtain ⟨ls1, s1, h1, hq, hn1, hh1, hl1, hb1, hw1⟩ : ∃ ls1 s1, App.run o s ls1 = some s1 ∧
      s1.apps = s.apps ++ [⟨b, .queued⟩] ∧ s1.now = s.now + w ∧ s1.hung = false ∧ s1.lib = s.lib ∧ s1.byId = s.byId ∧
      s1.waiting = s.waiting := by
    by_cases hgt : goBlockTime b.timestamp > s.now + o.delayThreshold
    · refine ⟨[.tryBlock i, .tick w, .delayDone s.apps.length], ?_⟩
      have hle : s.now + satDur (goBlockTime b.timestamp - (s.now + o.delayThreshold)) ≤ s.now + w := by
        unfold satDur; omega
      exact ⟨sq, by simp [App.run, step, hh, ht, handleTry, hp, beginApp, hgt, hle, sq], rfl, rfl, hh, rfl, rfl, rfl⟩
    · refine ⟨[.tryBlock i, .tick w], ?_⟩
      exact ⟨sq, by simp [App.run, step, hh, ht, handleTry, hp, beginApp, hgt, sq], rfl, rfl, hh, rfl, rfl, rfl⟩
  -- from there to the verdict
  have hget : ∀ st, (s.apps ++ [(⟨b, st⟩ : BApp)])[s.apps.length]? = some ⟨b, st⟩ := by intro st; simp
  have hsetq : ∀ st st', (s.apps ++ [(⟨b, st⟩ : BApp)]).set s.apps.length ⟨b, st'⟩ = s.apps ++ [⟨b, st'⟩] := by
    intro st st'; simp
  let s2 : AState := { s1 with apps := s.apps ++ [⟨b, .inRPC⟩], log := .submit b :: s1.log }
  let s3 : AState := { s2 with apps := s.apps ++ [⟨b, .done none⟩], log := .verdict b none :: s2.log }
  have h2 : step o s1 (.work s.apps.length) = some s2 := by
    simp only [step, hq, hget, hl1, if_neg hnl, hsetq, s2]
  have h3 : step o s2 (.rpcReturn s.apps.length none) = some s3 := by
    simp only [step, s2, hget, hsetq, s3]
  obtain ⟨s4, h4, hlog4, hw4, hn4⟩ : ∃ s4, step o s3 (.status s.apps.length) = some s4 ∧
      s4.log = x.chans.reverse.map (fun r => Obs.answer r none) ++ (.status b none :: s3.log) ∧ s4.waiting = s.waiting ∧
      s4.now = s.now + w := by
    refine ⟨handleStatus o { s3 with apps := s3.apps.eraseIdx s.apps.length } b none, ?_, ?_⟩
    · have e1 : s3.apps[s.apps.length]? = some ⟨b, .done none⟩ := hget _
      have e2 : s3.hung = false := hh1
      simp only [step, e1, e2]
    · rcases handleStatus_cases o { s3 with apps := s3.apps.eraseIdx s.apps.length } b none with ⟨hc, _⟩ | ⟨_, hc, _⟩ | ⟨_, _, hs⟩
      · cases hc
      · cases hc
      · rw [hs, log_remove, (onlyRemoved_remove _ _ _).waiting, (onlyRemoved_remove _ _ _).now]
        refine ⟨?_, hw1, hn1⟩
        have e3 : (afterStatus { s3 with apps := s3.apps.eraseIdx s.apps.length } b none).byId = s.byId := hb1
        simp only [e3, hx]
        rfl
  have h5 : step o s4 (.callerReturns r) = some { s4 with waiting := s4.waiting.erase r, log := .returned r none :: s4.log } := by
    have : answerOf s4.log r = some none := by
      rw [hlog4]; exact answerOf_answers _ _ _ _ (List.mem_reverse.2 hr)
    have hw' : r ∈ s4.waiting := by rw [hw4]; exact hw
    simp only [step, if_pos hw', this]
  refine ⟨ls1 ++ [.work s.apps.length, .rpcReturn s.apps.length none, .status s.apps.length, .callerReturns r],
    { s4 with waiting := s4.waiting.erase r, log := .returned r none :: s4.log }, ?_, hn4, ?_, ?_, ?_⟩
  · rw [run_append, h1]
    simp only [Option.bind_some, App.run, h2, h3, h4, h5]
  · simp [hlog4, s3, s2]
  · simp [hlog4, s3, s2]
  · simp

/-- The claim: if the chain accepts a block, the call by which gossip handed it over — with `T` to wait — does not end in a
time-out merely because the block was dated ahead. -/
def EarlyForgiven (o : AppOpts) (T : Time) : Prop :=
  ∀ (hi lib : UInt64) (T0 : Int) (ls0 ls1 ls2 : List Label) (s0 s1 s2 : AState) (b : Blk),
    App.run o (App.init hi lib T0) (ls0 ++ [.applyBlock b]) = some s0 → App.run o s0 ls1 = some s1 →
    s1.now = s0.now + T → App.run o s1 ls2 = some s2 → Obs.verdict b none ∈ s2.log →
    Obs.returned (s0.nextReq - 1) (some (.sentinel .blockApplicationTimeout)) ∉ s1.log

/-- A block nine seconds ahead. -/
def exNine : Blk := ⟨[5], [0], 11, 9000, [], []⟩

def exN0 : AState := (App.run exO exS0 [.applyBlock exNine]).getD exS0
def exN1 : AState := (App.run exO exN0 [.newBlock 0, .tryBlock 0, .tick 3000000000, .callerTimesOut 0]).getD exS0
def exN2 : AState := (App.run exO exN1 [.tick 2000000000, .delayDone 0, .work 0, .rpcReturn 0 none]).getD exS0

/-- C152 refuted for the defaults (`BlockTimeout` of 3 s): the call for a block nine seconds ahead times out, and the chain
accepts the block two seconds later. -/
theorem C152_early_refuted : ¬ EarlyForgiven exO (3 * second) := by
  intro h
  refine h 10 5 0 [] [.newBlock 0, .tryBlock 0, .tick 3000000000, .callerTimesOut 0]
    [.tick 2000000000, .delayDone 0, .work 0, .rpcReturn 0 none] exN0 exN1 exN2 exNine ?_ ?_ ?_ ?_ ?_ ?_ <;> decide +kernel

/-! ### Non-vacuity -/

/- In the run of the refutation the hypotheses of `C152_too_early_partial` are met when the call times out. -/
example : App.run exO (App.init 10 5 0) [] = some exS0 ∧
    App.run exO exS0 [.applyBlock exNine, .newBlock 0, .tryBlock 0, .tick 3000000000, .callerTimesOut 0] = some exN1 ∧
    exN1.now - 0 < 9223372036854775807 ∧ Obs.call 0 exNine ∈ exN1.log ∧ exS0.log = [] ∧
    exN1.now < exS0.now + exO.delayTimeout ∧
    exN1.now + exO.delayThreshold + second ≤ (exNine.timestamp.toNat : Int) * 1000000 ∧
    Obs.returned 0 (some (.sentinel .blockApplicationTimeout)) ∈ exN1.log := by decide +kernel

/- The message it came with. -/
def exNineRaw : RawBlock := { id := some exNine.id, header := some ⟨some exNine.previous, exNine.height, exNine.timestamp, none⟩ }
def exNineEnv : GossipValidate.Env RawBlock :=
  { me := [1], decode := fun _ => .ok exNineRaw, lib := 5, apply := fun _ => some (.sentinel .blockApplicationTimeout), author := id }
def exNineMsg : GossipValidate.Msg := ⟨[7], [2], [3], [4]⟩

example : Handed exNineEnv exNineMsg exNineRaw ∧ exNineRaw.toBlk = some exNine ∧
    Obs.returned 0 (exNineEnv.apply exNineRaw) ∈ exN1.log := by
  refine ⟨⟨rfl, by decide, ⟨by decide, _, rfl, by decide⟩, ?_⟩, by decide, by decide +kernel⟩
  rintro ⟨h, h1, h2⟩
  cases h1
  revert h2
  decide

/- A block six seconds ahead can be applied after two. -/
def exSix : Blk := { exNine with timestamp := 6000 }
def exSx : AState := (App.run exO exS0 [.applyBlock exSix, .newBlock 0]).getD exS0

example : App.run exO exS0 [.applyBlock exSix, .newBlock 0] = some exSx ∧ exSx.hung = false ∧ exSx.tries[0]? = some (exSix, false) ∧
    exSx.byId.get exSix.id = some ⟨exSix, [0]⟩ ∧ 0 ∈ exSx.waiting ∧ exSx.apps = [] ∧ exSx.lib < exSix.height ∧
    (exSix.timestamp.toNat : Int) * 1000000 ≤ exSx.now + (2000000000 : Nat) + exO.delayThreshold := by decide +kernel

end KP2P

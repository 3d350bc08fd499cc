import Verif.Proof.TxApply
/-!
# C03, C04, C65: the transaction path of the applicator
-/

namespace KP2P
open KP2P.TxA Spec.TxA

/-- C03, the intended claim about submissions: two submissions of one id are more than `dur` apart. -/
def SubmissionsApart (dur : Int) (s : State) : Prop :=
  ∀ r r' tx tx' t t', TxA.Obs.submit r tx t ∈ s.log → TxA.Obs.submit r' tx' t' ∈ s.log → r ≠ r' → tid tx = tid tx' →
    dur < t - t' ∨ dur < t' - t

/-- C03, the intended claim about blocks: no submission of an id within `dur` after a block broadcast that
contains it was processed. -/
def BlocksProtect (dur : Int) (s : State) : Prop :=
  ∀ a p b q c, s.passes = a ++ p :: (b ++ q :: c) → p.req = none →
    ∀ id, Shows p id → Admits q id → dur < q.time - p.time

/-- C03 as far as it holds: consecutive decisions to submit. Of two decisions (taken at the time the cache is
consulted) to submit the same id, the later is more than `dur` after the earlier. What is missing is that a worker may
pause between decision and submission, see `C03_submissions_refuted`. -/
theorem C03_decisions_apart_partial (dur : Int) (hd : 0 ≤ dur) (s : State) (hr : TxA.Reachable dur s)
    (a b c : List Pass) (p q : Pass) (id : Bytes) (e : s.passes = a ++ p :: (b ++ q :: c))
    (hp : Admits p id) (hq : Admits q id) : dur < q.time - p.time := by
  obtain ⟨now, ls, hr⟩ := hr
  exact admitted_apart (cacheInv_run hd hr) e hp hq

/-- C03: every submission follows a decision of its own, taken earlier for the same transaction; no call submits
twice. -/
theorem C03_submission_decided_partial (dur : Int) (s : State) (hr : TxA.Reachable dur s) :
    (submitted s.log).Nodup ∧
    ∀ r tx t, TxA.Obs.submit r tx t ∈ s.log → TxA.Obs.call r tx ∈ s.log ∧
      ∃ p ∈ s.passes, p.req = some r ∧ p.txs = [tx] ∧ p.count = 0 ∧ p.time ≤ t := by
  obtain ⟨now, ls, hr⟩ := hr
  have h := reqInv_run hr
  refine ⟨?_, h.subm⟩
  have := h.fresh
  unfold TxA.fresh at this
  exact (List.nodup_append.1 this).2.1

/-- C03, the rate: whatever the scheduling, in an execution that started at `start` an id is submitted at most
`1 + (now - start) / (dur + 1)` times. -/
theorem C03_rate_partial (dur : Int) (hd : 0 ≤ dur) (start : Int) (ls : List TxA.Label) (s : State)
    (hr : TxA.run (TxA.init dur start) ls = some s) (id : Bytes) :
    (((submittedId id s.log).length : Int) - 1) * (dur + 1) ≤ s.now - start := by
  have hc := cacheInv_run hd hr
  have h := reqInv_run hr
  have hlen : (submittedId id s.log).length ≤ (admissions s id).length := by
    have hn : (submittedId id s.log).Nodup :=
      (C03_submission_decided_partial dur s ⟨start, ls, hr⟩).1.sublist (submittedId_sub id s.log)
    have hsub : ((submittedId id s.log).map some) ⊆ (admissions s id).map Pass.req := by
      intro x hx
      obtain ⟨r, hx', rfl⟩ := List.mem_map.1 hx
      unfold submittedId at hx'
      obtain ⟨o, ho, e⟩ := List.mem_filterMap.1 hx'
      cases o with
      | submit r' tx t =>
        dsimp only at e
        split at e
        · rename_i hid
          cases e
          obtain ⟨_, p, hp, h1, h2, h3, _⟩ := h.subm _ _ _ ho
          refine List.mem_map.2 ⟨p, List.mem_filter.2 ⟨hp, decide_eq_true ⟨h3, by rw [h1]; rfl, tx, h2, hid⟩⟩, h1⟩
        · cases e
      | _ => cases e
    have hn' : ((submittedId id s.log).map some).Nodup := List.Nodup.map (fun a b h => Option.some.inj h) hn
    have := (List.subperm_of_subset hn' hsub).length_le
    simpa using this
  by_cases hne : admissions s id = []
  · rw [hne] at hlen
    have h0 : (submittedId id s.log).length = 0 := by simpa using hlen
    rw [h0]
    have := hc.startLe
    have : (((0 : Nat) : Int) - 1) * (dur + 1) = -(dur + 1) := by ring
    rw [this]; omega
  · have hb := gaps_bound dur (admissions s id) s.now start (admissions_apart hc id)
      (fun p hp => hc.past p (List.mem_filter.1 hp).1) hne
    refine Int.le_trans ?_ hb
    exact Int.mul_le_mul_of_nonneg_right (by omega) (by omega)

/-- C03 for accepted blocks, as far as it holds: after a broadcast of a block containing the id was processed, a
decision to submit the id comes more than `dur` later, unless the id had been shown to the cache already within `dur`
before the block; in that case the decision is more than `dur` after that earlier showing. -/
theorem C03_block_partial (dur : Int) (hd : 0 ≤ dur) (s : State) (hr : TxA.Reachable dur s)
    (a b c : List Pass) (p q : Pass) (id : Bytes) (e : s.passes = a ++ p :: (b ++ q :: c))
    (hp : Shows p id) (hq : Admits q id) :
    dur < q.time - p.time ∨ ∃ p' ∈ a, Shows p' id ∧ p.time - p'.time ≤ dur ∧ dur < q.time - p'.time := by
  obtain ⟨now, ls, hr⟩ := hr
  exact shown_then_admitted (cacheInv_run hd hr) e hp hq

/-- The cache never panics on this path. -/
theorem C03_no_panic_partial (dur : Int) (hd : 0 ≤ dur) (s : State) (hr : TxA.Reachable dur s) : s.crashed = false := by
  obtain ⟨now, ls, hr⟩ := hr
  exact (cacheInv_run hd hr).ok

private def txA : Tx := ⟨some [1], []⟩
private def txB : Tx := ⟨some [2], []⟩

private def delayed : State :=
  (TxA.run (TxA.init 10 0) [.call txA, .work 0, .tick 11, .call txA, .work 0, .submit 0, .submit 1]).getD (TxA.init 10 0)

/-- C03 is false as stated for the instants of submission: a worker that pauses between the cache and the RPC submits
at the same instant as a later one. -/
theorem C03_submissions_refuted : ∃ s, TxA.Reachable 10 s ∧ ¬ SubmissionsApart 10 s := by
  refine ⟨delayed, reachable_getD _ _ _ _ (by decide +kernel), ?_⟩
  intro h
  have h1 : TxA.Obs.submit 0 txA 11 ∈ delayed.log := by decide +kernel
  have h2 : TxA.Obs.submit 1 txA 11 ∈ delayed.log := by decide +kernel
  have := h 0 1 txA txA 11 11 h1 h2 (by decide) rfl
  omega

private def late : State :=
  (TxA.run (TxA.init 10 0) [.call txA, .work 0, .tick 9, .broadcast [txB, txA], .tick 2, .call txA, .work 0]).getD
    (TxA.init 10 0)

/-- C03 is false as stated for blocks: a transaction seen before the block is let through again soon after the block,
because a hit does not renew the record. -/
theorem C03_blocks_refuted : ∃ s, TxA.Reachable 10 s ∧ ¬ BlocksProtect 10 s := by
  refine ⟨late, reachable_getD _ _ _ _ (by decide +kernel), ?_⟩
  intro h
  have := h [⟨0, [txA], some 0, 0⟩] ⟨9, [txB, txA], none, 1⟩ [] ⟨11, [txA], some 1, 0⟩ [] (by decide +kernel) rfl
    [1] ⟨txA, by simp, rfl⟩ ⟨rfl, rfl, txA, rfl, rfl⟩
  simp only at this
  omega

/- Two decisions for one id in one execution; the bounds of the theorems are met. -/
example : late.passes = [⟨0, [txA], some 0, 0⟩, ⟨9, [txB, txA], none, 1⟩, ⟨11, [txA], some 1, 0⟩] ∧
    TxA.Reachable 10 late := ⟨by decide +kernel, reachable_getD _ _ _ _ (by decide +kernel)⟩

example : submittedId [1] delayed.log = [1, 0] ∧ delayed.now = 11 := by decide +kernel

/-- C04, the intended claim: a nil result means the chain accepted the transaction of the call. -/
def SuccessMeansAccepted (s : State) : Prop :=
  ∀ r, TxA.Obs.returned r none ∈ s.log → ∃ tx, TxA.Obs.call r tx ∈ s.log ∧ TxA.Obs.verdict r tx none ∈ s.log

/-- C04 as far as it holds: if a call returns nil, the chain accepted its transaction when this call submitted it, or
the transaction's id was shown to the cache at most `dur` before the call was processed. -/
theorem C04_success_partial (dur : Int) (hd : 0 ≤ dur) (s : State) (hr : TxA.Reachable dur s) (r : Nat)
    (h : TxA.Obs.returned r none ∈ s.log) :
    ∃ tx, TxA.Obs.call r tx ∈ s.log ∧ (TxA.Obs.verdict r tx none ∈ s.log ∨
      ∃ a q c, s.passes = a ++ q :: c ∧ q.req = some r ∧ q.txs = [tx] ∧
        ∃ p ∈ a, Shows p (tid tx) ∧ q.time - p.time ≤ dur) := by
  obtain ⟨now, ls, hr⟩ := hr
  have hi := reqInv_run hr
  have hc := cacheInv_run hd hr
  have ha : TxA.Obs.answer r none ∈ s.log := by
    rcases hi.ret r none h with h | h
    · exact h
    · cases h
  obtain ⟨tx, h1, h2⟩ := hi.ans r none ha
  refine ⟨tx, h1, h2.imp id ?_⟩
  rintro ⟨_, q, hq, h3, h4, h5⟩
  obtain ⟨a, c, e⟩ := List.append_of_mem hq
  refine ⟨a, q, c, e, h3, h4, ?_⟩
  have hn := count_at hc e
  rw [h4] at hn
  simp only [List.map_cons, List.map_nil, Spec.present] at hn
  by_cases hs : Spec.SeenWithin dur (Spec.history dur (hist a) []).1 q.time (tid tx)
  · obtain ⟨o, ho, g1, g2, g3⟩ := hs
    rcases history_mem ho with h6 | ⟨p', hp', h7, h8⟩
    · cases h6
    · rw [g1] at h8
      exact ⟨p', hp', h8, by omega⟩
  · rw [if_neg hs] at hn
    exact absurd hn h5

private def rejected : State :=
  (TxA.run (TxA.init 10 0) [.call txA, .work 0, .submit 0, .rpcReturn 0 (some (.other 7)), .callerReturns 0, .tick 3,
    .call txA, .work 0, .callerReturns 1]).getD (TxA.init 10 0)

/-- C04 is false as stated: a transaction the chain rejected is reported as a success when it is repeated. -/
theorem C04_success_refuted : ∃ s, TxA.Reachable 10 s ∧ ¬ SuccessMeansAccepted s := by
  refine ⟨rejected, reachable_getD _ _ _ _ (by decide +kernel), ?_⟩
  intro h
  obtain ⟨tx, _, h2⟩ := h 1 (by decide +kernel)
  have : rejected.log.all fun | .verdict _ _ none => false | _ => true := by decide +kernel
  exact absurd (List.all_eq_true.1 this _ h2) (by simp)

example : rejected.log.head? = some (.returned 1 none) ∧
    TxA.Obs.verdict 0 txA (some (.other 7)) ∈ rejected.log := by decide +kernel

/-- C65. No call is lost and none is answered twice: at every moment the calls made so far are, each exactly once,
waiting in the queue, with a worker, or answered. -/
theorem C65_exactly_once (dur : Int) (s : State) (hr : TxA.Reachable dur s) :
    (s.queue.map Prod.fst ++ s.jobs.map Job.req ++ answered s.log).Perm (List.range s.nextReq) ∧
      (answered s.log).Nodup := by
  obtain ⟨now, ls, hr⟩ := hr
  have h := reqInv_run hr
  refine ⟨h.owned, ?_⟩
  have : (TxA.owned s).Nodup := h.owned.nodup_iff.2 List.nodup_range
  exact (List.nodup_append.1 this).2.1

/-- C65. The answer of a call that submitted is the chain's verdict on the transaction of that call; the answer of a
call that did not submit is nil; a verdict is preceded by a submission by the same call. -/
theorem C65_answer_is_verdict (dur : Int) (s : State) (hr : TxA.Reachable dur s) (r : Nat) (e : Option Err)
    (h : TxA.Obs.answer r e ∈ s.log) :
    ∃ tx, TxA.Obs.call r tx ∈ s.log ∧
      ((TxA.Obs.verdict r tx e ∈ s.log ∧ ∃ t, TxA.Obs.submit r tx t ∈ s.log) ∨
       (e = none ∧ ∃ p ∈ s.passes, p.req = some r ∧ p.txs = [tx] ∧ p.count ≠ 0)) := by
  obtain ⟨now, ls, hr⟩ := hr
  have hi := reqInv_run hr
  obtain ⟨tx, h1, h2⟩ := hi.ans r e h
  exact ⟨tx, h1, h2.imp (fun hv => ⟨hv, hi.verd _ _ _ hv⟩) id⟩

example : TxA.Reachable 10 rejected ∧ answered rejected.log = [1, 0] ∧
    TxA.Obs.answer 0 (some (.other 7)) ∈ rejected.log :=
  ⟨reachable_getD _ _ _ _ (by decide +kernel), by decide +kernel, by decide +kernel⟩

/-- What a step does to the callers. -/
private theorem callers_step {s s' : State} {l : TxA.Label} (h : TxA.step s l = some s') :
    (∃ tx, l = .call tx ∧ s'.waiting = s.nextReq :: s.waiting ∧ s'.nextReq = s.nextReq + 1 ∧
      s'.log = .call s.nextReq tx :: s.log) ∨
    (∃ r e, r ∈ s.waiting ∧ s'.waiting = s.waiting.erase r ∧ s'.nextReq = s.nextReq ∧ s'.log = .returned r e :: s.log ∧
      (answerOf s.log r = some e ∨ ∃ x, e = some x ∧ l = .callerGivesUp r x)) ∨
    (s'.waiting = s.waiting ∧ s'.nextReq = s.nextReq ∧ ∃ new, s'.log = new ++ s.log ∧ ∀ r e, TxA.Obs.returned r e ∉ new) := by
  cases l <;> simp only [TxA.step] at h
  case call tx => cases h; exact Or.inl ⟨tx, rfl, rfl, rfl, rfl⟩
  case work i =>
    refine Or.inr (Or.inr ?_)
    split at h
    · cases h
    · split at h
      · cases h; exact ⟨rfl, rfl, [], rfl, by simp⟩
      · split at h
        · cases h; exact ⟨rfl, rfl, [], rfl, by simp⟩
        · cases h; exact ⟨rfl, rfl, [_], rfl, by simp⟩
  case submit i =>
    refine Or.inr (Or.inr ?_)
    split at h
    · cases h; exact ⟨rfl, rfl, [_], rfl, by simp⟩
    · cases h
  case rpcReturn i e =>
    refine Or.inr (Or.inr ?_)
    split at h
    · cases h; exact ⟨rfl, rfl, [_, _], rfl, by simp⟩
    · cases h
  case broadcast txs =>
    refine Or.inr (Or.inr ?_)
    split at h
    · cases h; exact ⟨rfl, rfl, [], rfl, by simp⟩
    · cases h; exact ⟨rfl, rfl, [], rfl, by simp⟩
  case callerReturns r =>
    split at h
    · rename_i hr
      split at h
      · rename_i e ha
        cases h; exact Or.inr (Or.inl ⟨r, e, hr, rfl, rfl, rfl, Or.inl ha⟩)
      · cases h
    · cases h
  case callerGivesUp r x =>
    split at h
    · rename_i hr
      cases h; exact Or.inr (Or.inl ⟨r, some x, hr, rfl, rfl, rfl, Or.inr ⟨x, rfl, rfl⟩⟩)
    · cases h
  case tick d => cases h; exact Or.inr (Or.inr ⟨rfl, rfl, [], rfl, by simp⟩)

/-- C65. A call returns the answer to its own request, or the error with which its context ended; nothing else. -/
theorem C65_returned_value (dur start : Int) (ls : List TxA.Label) (s : State)
    (hr : TxA.run (TxA.init dur start) ls = some s) (r : Nat) (e : Option Err) (h : TxA.Obs.returned r e ∈ s.log) :
    TxA.Obs.answer r e ∈ s.log ∨ ∃ x, e = some x ∧ TxA.Label.callerGivesUp r x ∈ ls := by
  have key : ∀ (ls : List TxA.Label) (s0 : State), TxA.run s0 ls = some s →
      (TxA.Obs.returned r e ∈ s0.log → TxA.Obs.answer r e ∈ s.log) →
      TxA.Obs.answer r e ∈ s.log ∨ ∃ x, e = some x ∧ TxA.Label.callerGivesUp r x ∈ ls := by
    intro ls
    induction ls with
    | nil => intro s0 h0 hi; cases h0; exact Or.inl (hi h)
    | cons l ls ih =>
      intro s0 h0 hi
      rw [TxA.run_cons] at h0
      cases hs : TxA.step s0 l with
      | none => rw [hs] at h0; cases h0
      | some s1 =>
        rw [hs] at h0
        have grow : ∀ o, o ∈ s1.log → o ∈ s.log := fun o ho =>
          TxA.run_ind (P := fun x => o ∈ x.log) (fun a l b ha hb => by
            rcases callers_step hb with ⟨_, _, _, _, hl⟩ | ⟨_, _, _, _, _, hl, _⟩ | ⟨_, _, _, hl, _⟩ <;> rw [hl] <;> simp [ha])
            ls s1 s ho h0
        by_cases hg : ∃ x, e = some x ∧ l = .callerGivesUp r x
        · obtain ⟨x, h1, rfl⟩ := hg
          exact Or.inr ⟨x, h1, by simp⟩
        refine (ih s1 h0 fun hm => ?_).imp id fun ⟨x, a, b⟩ => ⟨x, a, List.mem_cons_of_mem _ b⟩
        rcases callers_step hs with ⟨_, _, _, _, hl⟩ | ⟨r', e', _, _, _, hl, hv⟩ | ⟨_, _, new, hl, hn⟩
        · rw [hl] at hm; exact hi (by simpa using hm)
        · rw [hl] at hm
          rcases List.mem_cons.1 hm with he | hm
          · cases he
            rcases hv with hv | hv
            · exact grow _ (hl ▸ List.mem_cons_of_mem _ (answerOf_mem hv))
            · exact absurd hv hg
          · exact hi hm
        · rw [hl] at hm
          rcases List.mem_append.1 hm with hm | hm
          · exact absurd hm (hn r e)
          · exact hi hm
  exact key ls _ hr (by simp [TxA.init])

/-- C65. Every call made so far waits or has returned, once. -/
theorem C65_returns_once (dur : Int) (s : State) (hr : TxA.Reachable dur s) :
    (s.waiting ++ returned s.log).Perm (List.range s.nextReq) := by
  obtain ⟨now, ls, hr⟩ := hr
  refine TxA.run_ind (P := fun s => (s.waiting ++ returned s.log).Perm (List.range s.nextReq)) ?_ ls _ s ?_ hr
  · intro s l s' hp hs
    rcases callers_step hs with ⟨tx, _, hw, hn, hl⟩ | ⟨r, e, hm, hw, hn, hl, _⟩ | ⟨hw, hn, new, hl, hno⟩
    · rw [hw, hn, hl, List.range_succ]
      have : returned (.call s.nextReq tx :: s.log) = returned s.log := rfl
      rw [this, List.cons_append]
      exact (List.Perm.cons _ hp).trans (List.perm_append_singleton _ _).symm
    · rw [hw, hn, hl]
      have : returned (.returned r e :: s.log) = r :: returned s.log := rfl
      rw [this]
      refine List.Perm.trans ?_ hp
      refine List.perm_middle.trans ?_
      rw [← List.cons_append]
      exact (List.perm_cons_erase hm).symm.append_right _
    · have : returned (new ++ s.log) = returned s.log := by
        have : returned new = [] := by
          unfold returned
          rw [List.filterMap_eq_nil_iff]
          intro a ha
          cases a <;> first | rfl | exact absurd ha (hno _ _)
        unfold returned at this ⊢
        rw [List.filterMap_append, this, List.nil_append]
      rw [hw, hn, hl, this]; exact hp
  · simp [TxA.init, returned]

/- A call that returns the chain's error, and one that gives up. -/
private def exTx : Tx := { id := some [1] }
example : (TxA.run (TxA.init 10 0) [.call exTx, .call exTx, .work 0, .submit 0, .rpcReturn 0 (some (.other 7)), .callerReturns 0,
    .callerGivesUp 1 .ctxCanceled]).map (fun s => (returned s.log, s.waiting, s.nextReq)) = some ([1, 0], [], 2) := by
  decide +kernel

end KP2P

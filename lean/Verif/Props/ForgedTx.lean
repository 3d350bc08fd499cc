import Verif.Props.TxApply
import Mathlib.Data.List.Induction
/-!
# C120: a made-up transaction does not suppress the genuine one
-/

namespace KP2P
open KP2P.TxA Spec.TxA

namespace TxA

/-- What the cache says to one more call. -/
theorem check_one {dur start : Int} {s : State} (h : CacheInv dur start s) (hd : 0 ≤ dur) (tx : Tx) :
    ∃ c, s.cache.checkTransactions s.now [tx] =
      some (c, if Spec.SeenWithin dur (Spec.history dur (hist s.passes) []).1 s.now (tid tx) then 1 else 0) := by
  obtain ⟨c, n, h1, h2⟩ := cacheInv_pass h hd [tx]
  have h3 := h2 { s with cache := c, passes := s.passes ++ [⟨s.now, [tx], none, n⟩] } none rfl rfl rfl h.ok
  have h4 := count_at h3 (a := s.passes) (c := []) (q := ⟨s.now, [tx], none, n⟩) rfl
  refine ⟨c, ?_⟩
  rw [h1]
  simp only [List.map_cons, List.map_nil, Spec.present] at h4
  rw [h4]
  split <;> rfl

/-- A record of the cache stems from a block, or from a call that was let through. -/
theorem recorded_by {dur start : Int} {s : State} (h : CacheInv dur start s) {a c : List Pass} (e : s.passes = a ++ c) {o : Spec.Obs}
    (ho : o ∈ (Spec.history dur (hist a) []).1) (hf : o.fresh = true) :
    ∃ p ∈ a, p.time = o.time ∧ Shows p o.id ∧ ((∃ tx, p.txs = [tx]) → p.count = 0) := by
  induction a using List.reverseRecOn generalizing c with
  | nil => cases ho
  | append_singleton a p ih =>
    have hh : hist (a ++ [p]) = hist a ++ [(p.time, p.txs.map tid)] := by simp [hist]
    rw [hh, Spec.history_append] at ho
    simp only [Spec.history] at ho
    by_cases hold : o ∈ (Spec.history dur (hist a) []).1
    · obtain ⟨q, hq, h1⟩ := ih (c := p :: c) (by rw [e]; simp) hold
      exact ⟨q, List.mem_append_left _ hq, h1⟩
    · rcases present_mem ho with h1 | ⟨h1, h2⟩
      · exact absurd h1 hold
      · obtain ⟨tx, htx, hid⟩ := List.mem_map.1 h2
        refine ⟨p, by simp, h1.symm, ⟨tx, htx, hid⟩, ?_⟩
        rintro ⟨tx', hone⟩
        have hc := count_at h (a := a) (q := p) (c := c) (by rw [e]; simp)
        rw [hone] at hc ho
        simp only [List.map_cons, List.map_nil, Spec.present] at hc ho
        split at ho
        · simp only [List.mem_append, List.mem_singleton] at ho
          rcases ho with ho | rfl
          · exact absurd ho hold
          · cases hf
        · rename_i hns
          rw [if_neg hns] at hc
          exact hc

end TxA

/-- C120, the claim: a call is answered with success only if its own transaction, not merely one that bears its id, was submitted
or was in a block. -/
def OwnContents (s : State) : Prop :=
  ∀ r tx, TxA.Obs.call r tx ∈ s.log → TxA.Obs.returned r none ∈ s.log →
    (∃ r' t, TxA.Obs.submit r' tx t ∈ s.log) ∨ ∃ p ∈ s.passes, tx ∈ p.txs ∧ (p.req = none ∨ p.count = 0)

/-- C120, how it fails, for all executions: once a transaction with some id was let through to the chain, whatever its contents and
whatever the chain said to it, every call with this id that is handled in the following `dur` is answered with success at once, and
nothing is submitted for it. -/
theorem C120_suppressed_partial (dur : Int) (hd : 0 ≤ dur) (s s' : State) (hr : TxA.Reachable dur s) (p : Pass) (hp : p ∈ s.passes)
    (id : Bytes) (ha : Admits p id) (i r : Nat) (tx : Tx) (hq : s.queue[i]? = some (r, tx)) (hid : tid tx = id)
    (ht : s.now - p.time ≤ dur) (hst : TxA.step s (.work i) = some s') :
    s'.log = .answer r none :: s.log ∧ s'.jobs = s.jobs ∧ s'.queue = s.queue.eraseIdx i := by
  obtain ⟨now, ls, hr⟩ := hr
  have hc := cacheInv_run hd hr
  obtain ⟨c, h1⟩ := check_one hc hd tx
  obtain ⟨a, b, e⟩ := List.append_of_mem hp
  have hseen : Spec.SeenWithin dur (Spec.history dur (hist s.passes) []).1 s.now (tid tx) := by
    have : hist s.passes = hist a ++ ((p.time, p.txs.map tid) :: hist b) := by rw [e]; simp [hist]
    rw [this, Spec.history_append]
    simp only [Spec.history]
    obtain ⟨x2, hx2⟩ := history_ext dur (hist b) (Spec.present dur p.time (p.txs.map tid) (Spec.history dur (hist a) []).1).1
    rw [hx2, admits_present hc e ha]
    exact ⟨⟨p.time, id, true⟩, by simp, hid.symm, rfl, ht⟩
  rw [if_pos hseen] at h1
  simp only [TxA.step, hq, h1] at hst
  cases hst
  exact ⟨rfl, rfl, rfl⟩

/-- C120, what holds: if all transactions that were handed over or in blocks with the id of `tx` are `tx`, a successful call with `tx`
means that the chain accepted it for this call, or that `tx` itself was decided to be submitted, or was in a block, at most `dur`
before. -/
theorem C120_own_contents_partial (dur : Int) (hd : 0 ≤ dur) (s : State) (hr : TxA.Reachable dur s) (r : Nat) (tx : Tx)
    (hcall : TxA.Obs.call r tx ∈ s.log) (h : TxA.Obs.returned r none ∈ s.log)
    (hone : ∀ p ∈ s.passes, ∀ tx' ∈ p.txs, tid tx' = tid tx → tx' = tx) :
    TxA.Obs.verdict r tx none ∈ s.log ∨
      ∃ a q c, s.passes = a ++ q :: c ∧ q.req = some r ∧ q.txs = [tx] ∧
        ∃ p ∈ a, tx ∈ p.txs ∧ q.time - p.time ≤ dur ∧ ((∃ tx', p.txs = [tx']) → p.count = 0) := by
  obtain ⟨now, ls, hr⟩ := hr
  have hi := reqInv_run hr
  have hc := cacheInv_run hd hr
  have ha : TxA.Obs.answer r none ∈ s.log := by
    rcases hi.ret r none h with h | h
    · exact h
    · cases h
  obtain ⟨tx', h1, h2⟩ := hi.ans r none ha
  obtain rfl := hi.calls1 r tx' tx h1 hcall
  refine h2.imp id ?_
  rintro ⟨_, q, hq, h3, h4, h5⟩
  obtain ⟨a, c, e⟩ := List.append_of_mem hq
  refine ⟨a, q, c, e, h3, h4, ?_⟩
  have hn := count_at hc e
  rw [h4] at hn
  simp only [List.map_cons, List.map_nil, Spec.present] at hn
  by_cases hs : Spec.SeenWithin dur (Spec.history dur (hist a) []).1 q.time (tid tx')
  · obtain ⟨o, ho, g1, g2, g3⟩ := hs
    obtain ⟨p, hp, p1, ⟨x, hx, p2⟩, p3⟩ := recorded_by hc e ho g2
    have := hone p (by rw [e]; simp [hp]) x hx (by rw [p2, g1])
    subst this
    exact ⟨p, hp, hx, by omega, p3⟩
  · rw [if_neg hs] at hn
    exact absurd hn h5

/-! ### For ever -/

namespace TxA

theorem run_append' {a b : List Label} {s t : State} (h : run s a = some t) : run s (a ++ b) = run t b := by
  induction a generalizing s with
  | nil => cases h; rfl
  | cons l a ih =>
    rw [run_cons] at h
    rw [List.cons_append, run_cons]
    cases hst : step s l with
    | none => rw [hst] at h; cases h
    | some v => rw [hst] at h; exact ih h

/-- Nothing is under way. -/
structure Idle (s : State) : Prop where
  queue : s.queue = []
  jobs : s.jobs = []
  waiting : s.waiting = []

/-- The made-up transaction, refused by the chain; the genuine one; a pause of more than the window. -/
def forgeRound (f g : Tx) (x : Err) (r d : Nat) : List Label :=
  [.call f, .work 0, .submit 0, .rpcReturn 0 (some x), .callerReturns r, .call g, .work 0, .callerReturns (r + 1), .tick d]

/-- What such a round does. -/
theorem forge_round {dur start : Int} (hd : 0 ≤ dur) {s : State} {ls : List Label} (hr : run (init dur start) ls = some s) (hs : Idle s)
    (f g : Tx) (hid : tid f = tid g) (x : Err) (d : Nat) (hold : ∀ p ∈ s.passes, Shows p (tid f) → dur < s.now - p.time) :
    ∃ s', run s (forgeRound f g x s.nextReq d) = some s' ∧ Idle s' ∧ s'.nextReq = s.nextReq + 2 ∧ s'.now = s.now + d ∧
      s'.log = [.returned (s.nextReq + 1) none, .answer (s.nextReq + 1) none, .call (s.nextReq + 1) g, .returned s.nextReq (some x),
        .answer s.nextReq (some x), .verdict s.nextReq f (some x), .submit s.nextReq f s.now, .call s.nextReq f] ++ s.log := by
  have hc := cacheInv_run hd hr
  obtain ⟨c, h1⟩ := check_one hc hd f
  have hns : ¬ Spec.SeenWithin dur (Spec.history dur (hist s.passes) []).1 s.now (tid f) := by
    rintro ⟨o, ho, g1, g2, g3⟩
    rcases history_mem ho with h6 | ⟨p', hp', h7, h8⟩
    · cases h6
    · rw [g1] at h8
      have := hold p' hp' h8
      omega
  rw [if_neg hns] at h1
  obtain ⟨q1, j1, w1⟩ := hs
  -- after the made-up transaction
  obtain ⟨u, hu⟩ : ∃ u : State, u = { s with
    cache := c, passes := s.passes ++ [⟨s.now, [f], some s.nextReq, 0⟩], nextReq := s.nextReq + 1,
    log := [.returned s.nextReq (some x), .answer s.nextReq (some x), .verdict s.nextReq f (some x), .submit s.nextReq f s.now,
      .call s.nextReq f] ++ s.log } := ⟨_, rfl⟩
  have hru : run s [.call f, .work 0, .submit 0, .rpcReturn 0 (some x), .callerReturns s.nextReq] = some u := by
    subst hu
    simp [run, step, q1, j1, w1, h1, answerOf]
  have hreach : run (init dur start) (ls ++ [.call f, .work 0, .submit 0, .rpcReturn 0 (some x), .callerReturns s.nextReq]) = some u := by
    rw [run_append' hr, hru]
  obtain ⟨c2, h2⟩ := check_one (cacheInv_run hd hreach) hd g
  have hseen : Spec.SeenWithin dur (Spec.history dur (hist u.passes) []).1 u.now (tid g) := by
    have e : u.passes = s.passes ++ ⟨s.now, [f], some s.nextReq, 0⟩ :: [] := by rw [hu]
    have hn : u.now = s.now := by rw [hu]
    have : hist u.passes = hist s.passes ++ [(s.now, [tid f])] := by rw [e]; simp [hist]
    rw [this, Spec.history_append]
    simp only [Spec.history, Spec.present, if_neg hns, hn]
    exact ⟨⟨s.now, tid f, true⟩, by simp, hid, rfl, by simp only; omega⟩
  rw [if_pos hseen] at h2
  have e1 : u.queue = [] := by rw [hu]; exact q1
  have e2 : u.jobs = [] := by rw [hu]; exact j1
  have e3 : u.waiting = [] := by rw [hu]; exact w1
  have e4 : u.nextReq = s.nextReq + 1 := by rw [hu]
  obtain ⟨v, hv⟩ : ∃ v : State, v = { u with
    cache := c2, passes := u.passes ++ [⟨u.now, [g], some u.nextReq, 1⟩], nextReq := u.nextReq + 1, now := u.now + d,
    log := [.returned u.nextReq none, .answer u.nextReq none, .call u.nextReq g] ++ u.log } := ⟨_, rfl⟩
  have hrv : run u [.call g, .work 0, .callerReturns (s.nextReq + 1), .tick d] = some v := by
    subst hv
    simp [run, step, e1, e2, e3, e4, h2, answerOf]
  refine ⟨v, ?_, ?_, ?_, ?_, ?_⟩
  · exact (run_append' (b := [.call g, .work 0, .callerReturns (s.nextReq + 1), .tick d]) hru).trans hrv
  · subst hv; exact ⟨e1, e2, e3⟩
  · subst hv; show u.nextReq + 1 = _; omega
  · subst hv; show u.now + _ = _; rw [hu]
  · subst hv
    show [Obs.returned u.nextReq none, .answer u.nextReq none, .call u.nextReq g] ++ u.log = _
    rw [e4, hu]; rfl

end TxA

/-- C120, refuted, for ever: for every number `n`, a genuine transaction is handed over `n` times, each time more than the window
after the last; each call returns success; the transaction is never submitted; and the chain has accepted nothing at all. It takes one
made-up transaction with its id per window. -/
theorem C120_for_ever_refuted (dur : Int) (hd : 0 ≤ dur) (f g : Tx) (hid : tid f = tid g) (hne : f ≠ g) (x : Err) (n : Nat) :
    ∃ s, TxA.Reachable dur s ∧
      (∀ k, k < n → TxA.Obs.call (2 * k + 1) g ∈ s.log ∧ TxA.Obs.returned (2 * k + 1) none ∈ s.log) ∧
      (∀ r t, TxA.Obs.submit r g t ∉ s.log) ∧ ∀ r tx e, TxA.Obs.verdict r tx e ∈ s.log → e = some x := by
  have key : ∃ s ls, TxA.run (TxA.init dur 0) ls = some s ∧ Idle s ∧ s.nextReq = 2 * n ∧ (∀ p ∈ s.passes, dur < s.now - p.time) ∧
      (∀ k, k < n → TxA.Obs.call (2 * k + 1) g ∈ s.log ∧ TxA.Obs.returned (2 * k + 1) none ∈ s.log) ∧
      (∀ r t, TxA.Obs.submit r g t ∉ s.log) ∧ ∀ r tx e, TxA.Obs.verdict r tx e ∈ s.log → e = some x := by
    induction n with
    | zero => exact ⟨TxA.init dur 0, [], rfl, ⟨rfl, rfl, rfl⟩, rfl, by simp [TxA.init], by simp, by simp [TxA.init], by simp [TxA.init]⟩
    | succ n ih =>
      obtain ⟨s, ls, h1, h2, h3, h4, h5, h6, h7⟩ := ih
      obtain ⟨s', g1, g2, g3, g4, g5⟩ := forge_round hd h1 h2 f g hid x (dur.toNat + 1) fun p hp _ => h4 p hp
      have hrun : TxA.run (TxA.init dur 0) (ls ++ forgeRound f g x s.nextReq (dur.toNat + 1)) = some s' := by
        rw [run_append' h1]; exact g1
      refine ⟨s', _, hrun, g2, by omega, ?_, ?_, ?_, ?_⟩
      · -- all passes were made before the pause
        have hc1 := cacheInv_run hd hrun
        have hsp : forgeRound f g x s.nextReq (dur.toNat + 1) = [.call f, .work 0, .submit 0, .rpcReturn 0 (some x),
          .callerReturns s.nextReq, .call g, .work 0, .callerReturns (s.nextReq + 1)] ++ [.tick (dur.toNat + 1)] := rfl
        rw [hsp, ← List.append_assoc] at hrun
        cases hm : TxA.run (TxA.init dur 0) (ls ++ [.call f, .work 0, .submit 0, .rpcReturn 0 (some x),
          .callerReturns s.nextReq, .call g, .work 0, .callerReturns (s.nextReq + 1)]) with
        | none =>
          exfalso
          have : ∀ (a b : List TxA.Label) (s : State), TxA.run s a = none → TxA.run s (a ++ b) = none := by
            intro a
            induction a with
            | nil => intro b s h; cases h
            | cons l a ih =>
              intro b s h
              rw [TxA.run_cons] at h
              rw [List.cons_append, TxA.run_cons]
              cases hst : TxA.step s l with
              | none => rfl
              | some v => rw [hst] at h; exact ih b v h
          rw [this _ _ _ hm] at hrun; cases hrun
        | some m =>
          rw [run_append' hm] at hrun
          have hc2 := cacheInv_run hd hm
          have e : s' = { m with now := m.now + ((dur.toNat + 1 : Nat) : Int) } := by
            have : some { m with now := m.now + ((dur.toNat + 1 : Nat) : Int) } = some s' := hrun
            cases this; rfl
          intro p hp
          rw [e] at hp ⊢
          have := (hc2.past p hp).2
          show dur < m.now + _ - p.time
          omega
      · intro k hk
        rw [g5]
        by_cases hkn : k < n
        · exact ⟨List.mem_append_right _ (h5 k hkn).1, List.mem_append_right _ (h5 k hkn).2⟩
        · obtain rfl : k = n := by omega
          rw [h3]; simp
      · intro r t hm
        rw [g5] at hm
        rcases List.mem_append.1 hm with hm | hm
        · simp at hm
          exact hne hm.2.1.symm
        · exact h6 r t hm
      · intro r tx e hm
        rw [g5] at hm
        rcases List.mem_append.1 hm with hm | hm
        · simp at hm
          exact hm.2.2
        · exact h7 r tx e hm
  obtain ⟨s, ls, h1, _, _, _, h2⟩ := key
  exact ⟨s, ⟨0, ls, h1⟩, h2⟩

/-- C120 is false as stated. -/
theorem C120_own_contents_refuted : ∃ s, TxA.Reachable 10 s ∧ ¬ OwnContents s := by
  refine ⟨_, reachable_getD 10 0 (forgeRound { id := some [1], rest := [7] } { id := some [1] } (.other 1) 0 11) (TxA.init 10 0)
    (by decide +kernel), fun h => ?_⟩
  rcases h 1 { id := some [1] } (by decide +kernel) (by decide +kernel) with ⟨r, t, h⟩ | ⟨p, hp, h1, h2⟩
  · have : ∀ o ∈ ((TxA.run (TxA.init 10 0) (forgeRound { id := some [1], rest := [7] } { id := some [1] } (.other 1) 0 11)).getD
      (TxA.init 10 0)).log, (match o with | .submit _ tx _ => tx.rest == [7] | _ => true) = true := by decide +kernel
    have := this _ h
    simp at this
  · have : ∀ p ∈ ((TxA.run (TxA.init 10 0) (forgeRound { id := some [1], rest := [7] } { id := some [1] } (.other 1) 0 11)).getD
      (TxA.init 10 0)).passes, (p.txs.all fun tx => tx.rest == [7]) = true ∨ (p.req ≠ none ∧ p.count ≠ 0) := by decide +kernel
    rcases this p hp with h3 | ⟨h3, h4⟩
    · have := List.all_eq_true.1 h3 _ h1
      simp at this
    · exact h2.elim h3 h4

/- Ten times in a row, with the window of five minutes (node.go:62). -/
example : ∃ s, TxA.Reachable 300000000000 s ∧ (∀ k, k < 10 → TxA.Obs.call (2 * k + 1) { id := some [1] } ∈ s.log ∧
    TxA.Obs.returned (2 * k + 1) none ∈ s.log) ∧ (∀ r t, TxA.Obs.submit r { id := some [1] } t ∉ s.log) ∧
    ∀ r tx e, TxA.Obs.verdict r tx e ∈ s.log → e = some (.other 1) :=
  C120_for_ever_refuted _ (by decide) { id := some [1], rest := [7] } { id := some [1] } rfl (by decide) (.other 1) 10

/- The premises of `C120_suppressed_partial`: a transaction was let through, and one with its id is queued. -/
example : let s := (TxA.run (TxA.init 10 0) [.call { id := some [1], rest := [7] }, .work 0, .call { id := some [1] }]).getD (TxA.init 10 0)
    (∃ p ∈ s.passes, Admits p [1] ∧ s.now - p.time ≤ 10) ∧ s.queue[0]? = some (1, { id := some [1] }) ∧
      (TxA.step s (.work 0)).isSome = true :=
  ⟨⟨⟨0, [{ id := some [1], rest := [7] }], some 0, 0⟩, by decide +kernel, ⟨rfl, rfl, _, rfl, rfl⟩, by decide +kernel⟩,
    by decide +kernel, by decide +kernel⟩

/- The premises of `C120_own_contents_partial`: the same transaction twice; the second call is answered from memory. -/
example : let s := (TxA.run (TxA.init 10 0) [.call { id := some [1] }, .work 0, .submit 0, .rpcReturn 0 none, .callerReturns 0,
      .call { id := some [1] }, .work 0, .callerReturns 1]).getD (TxA.init 10 0)
    TxA.Obs.call 1 { id := some [1] } ∈ s.log ∧ TxA.Obs.returned 1 none ∈ s.log ∧
      (∀ p ∈ s.passes, ∀ tx' ∈ p.txs, tx' = { id := some [1] }) ∧ TxA.Obs.verdict 1 { id := some [1] } none ∉ s.log := by
  decide +kernel

end KP2P

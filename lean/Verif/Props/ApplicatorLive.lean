import Verif.Proof.ApplicatorLive
import Verif.Props.ApplicatorSched
/-!
# C90, C91, and C18 under fairness: what happens to the blocks in the end
-/

namespace KP2P
open App

/-! ## Infinite executions -/

theorem reachable_step {o : AppOpts} {s s' : AState} {l : Label} (h : Reachable o s) (hst : step o s l = some s') :
    Reachable o s' := by
  obtain ⟨hi, lib, now, ls, hr⟩ := h
  exact ⟨hi, lib, now, ls ++ [l], by rw [run_append, hr]; exact run_one hst⟩

theorem exec_reachable {o : AppOpts} {σ : Nat → AState} {ev : Nat → Label} (h : Exec o σ ev) (h0 : Reachable o (σ 0)) (n : Nat) :
    Reachable o (σ n) := by
  induction n with
  | zero => exact h0
  | succ n ih => exact reachable_step ih (h n)

theorem exec_run {o : AppOpts} {σ : Nat → AState} {ev : Nat → Label} (h : Exec o σ ev) (n : Nat) :
    ∃ ls, App.run o (σ 0) ls = some (σ n) := by
  induction n with
  | zero => exact ⟨[], rfl⟩
  | succ n ih =>
    obtain ⟨ls, hr⟩ := ih
    exact ⟨ls ++ [ev n], by rw [run_append, hr]; exact run_one (h n)⟩

theorem quiet_frame {o : AppOpts} {s s' : AState} {l : Label} (hq : Quiet l) (hst : step o s l = some s') :
    s'.hung = s.hung ∧ s.now ≤ s'.now := by
  cases l with
  | applyBlock b => exact hq.elim
  | forkHeads heads lib => exact hq.elim
  | broadcast id height => exact hq.elim
  | callerReturns r => obtain ⟨_, e, _, rfl⟩ := step_callerReturns hst; exact ⟨rfl, Int.le_refl _⟩
  | callerTimesOut r => obtain ⟨_, rfl⟩ := step_callerTimesOut hst; exact ⟨rfl, Int.le_refl _⟩
  | newBlock i =>
    obtain ⟨_, r, c, hq, rfl⟩ := step_newBlock hst
    unfold handleNewBlock
    split
    · exact ⟨rfl, Int.le_refl _⟩
    · obtain ⟨m, p, hh', hf⟩ := addTables_frame { s with newQ := s.newQ.eraseIdx i } r c
      rcases addBlockEntry_cases { s with newQ := s.newQ.eraseIdx i } r c with ⟨_, he⟩ | ⟨h1, h2, he⟩ <;>
        (rw [he, hf]; exact ⟨rfl, Int.le_refl _⟩)
  | tryBlock i =>
    obtain ⟨_, c, f, ht, rfl⟩ := step_tryBlock hst
    unfold handleTry
    split
    · split <;> exact ⟨rfl, Int.le_refl _⟩
    · exact ⟨rfl, Int.le_refl _⟩
  | status i =>
    obtain ⟨_, c, e, ha, rfl⟩ := step_status hst
    rcases handleStatus_cases o { s with apps := s.apps.eraseIdx i } c e with ⟨hb, hs⟩ | ⟨hb, hu, hs⟩ | ⟨hb, hu, hs⟩
    · rw [hs]; exact ⟨rfl, Int.le_refl _⟩
    · rw [hs]; exact ⟨rfl, Int.le_refl _⟩
    · rw [hs, (onlyRemoved_remove _ _ _).hung, (onlyRemoved_remove _ _ _).now]; exact ⟨rfl, Int.le_refl _⟩
  | delayDone i => obtain ⟨c, t, t', ha, _, rfl⟩ := step_delayDone hst; exact ⟨rfl, Int.le_refl _⟩
  | delayTimeout i => obtain ⟨c, t, t', ha, _, rfl⟩ := step_delayTimeout hst; exact ⟨rfl, Int.le_refl _⟩
  | work i => obtain ⟨c, ha, ⟨_, rfl⟩ | ⟨_, rfl⟩⟩ := step_work hst <;> exact ⟨rfl, Int.le_refl _⟩
  | rpcReturn i e => obtain ⟨c, ha, rfl⟩ := step_rpcReturn hst; exact ⟨rfl, Int.le_refl _⟩
  | retryDue i => obtain ⟨t, c, hr, _, rfl⟩ := step_retryDue hst; exact ⟨rfl, Int.le_refl _⟩
  | tick d => rw [step_tick hst]; exact ⟨rfl, by simp only; omega⟩

/-- Everything a postponing step leaves alone. -/
structure SameBut (s s' : AState) : Prop where
  apps : s'.apps = s.apps
  newQ : s'.newQ = s.newQ
  waiting : s'.waiting = s.waiting
  log : s'.log = s.log
  byId : s'.byId = s.byId

theorem postpones_frame {o : AppOpts} {s s' : AState} {l : Label} (hp : Postpones s l) (hst : step o s l = some s') :
    SameBut s s' := by
  cases l with
  | tick d => rw [step_tick hst]; exact ⟨rfl, rfl, rfl, rfl, rfl⟩
  | retryDue i => obtain ⟨t, c, hr, _, rfl⟩ := step_retryDue hst; exact ⟨rfl, rfl, rfl, rfl, rfl⟩
  | tryBlock i =>
    obtain ⟨_, c, f, ht, rfl⟩ := step_tryBlock hst
    obtain ⟨b, hb, hpend⟩ := hp
    rw [ht] at hb; cases hb
    unfold handleTry
    rw [if_pos hpend, if_pos rfl]; exact ⟨rfl, rfl, rfl, rfl, rfl⟩
  | applyBlock _ => exact hp.elim
  | callerReturns _ => exact hp.elim
  | callerTimesOut _ => exact hp.elim
  | newBlock _ => exact hp.elim
  | forkHeads _ _ => exact hp.elim
  | broadcast _ _ => exact hp.elim
  | status _ => exact hp.elim
  | delayDone _ => exact hp.elim
  | delayTimeout _ => exact hp.elim
  | work _ => exact hp.elim
  | rpcReturn _ _ => exact hp.elim

theorem answerOf_isSome {log : List Obs} {r : Nat} {e : Option Err} (h : Obs.answer r e ∈ log) :
    ∃ e', answerOf log r = some e' := by
  cases ha : answerOf log r with
  | some e' => exact ⟨e', rfl⟩
  | none =>
    unfold answerOf at ha
    have := List.findSome?_eq_none_iff.1 ha _ h
    simp at this

theorem mem_answered {log : List Obs} {r : Nat} (h : r ∈ answered log) : ∃ e, Obs.answer r e ∈ log := by
  obtain ⟨x, hx, hx'⟩ := List.mem_filterMap.1 h
  cases x <;> simp at hx'
  subst hx'; exact ⟨_, hx⟩

/-- The heart of C90: from some point on nothing happens but the passing of time. -/
theorem rest_point {o : AppOpts} {σ : Nat → AState} {ev : Nat → Label} (h0 : Reachable o (σ 0)) (hh : (σ 0).hung = false)
    (hf : FairQuiet o σ ev) :
    ∃ N, ∀ n, N ≤ n → AtRest (σ n) ∧ (σ n).log = (σ N).log ∧ (σ n).byId = (σ N).byId := by
  have hreach := exec_reachable hf.exec h0
  have hhung : ∀ n, (σ n).hung = false := by
    intro n
    induction n with
    | zero => exact hh
    | succ n ih => rw [(quiet_frame (hf.quiet n) (hf.exec n)).1]; exact ih
  have hnow : ∀ m n, m ≤ n → (σ m).now ≤ (σ n).now := by
    intro m n hmn
    induction n, hmn using Nat.le_induction with
    | base => exact Int.le_refl _
    | succ n _ ih => exact Int.le_trans ih (quiet_frame (hf.quiet n) (hf.exec n)).2
  obtain ⟨N, hN⟩ := eventually_const (fun n => rank (σ n)) (fun n => by
    rcases rank_step (inv_reachable (hreach n)) (hf.quiet n) (hf.exec n) with h | h
    · exact Or.inl h
    · exact Or.inr h.1)
  have hpost : ∀ n, N ≤ n → Postpones (σ n) (ev n) := by
    intro n hn
    rcases rank_step (inv_reachable (hreach n)) (hf.quiet n) (hf.exec n) with h | h
    · have h1 := hN n hn
      have h2 := hN (n + 1) (Nat.le_succ_of_le hn)
      rw [h1, h2] at h; exact absurd h (lt_irrefl _)
    · exact h.2
  have hsame : ∀ n, N ≤ n → SameBut (σ N) (σ n) := by
    intro n hn
    induction n, hn using Nat.le_induction with
    | base => exact ⟨rfl, rfl, rfl, rfl, rfl⟩
    | succ n hn ih =>
      have := postpones_frame (hpost n hn) (hf.exec n)
      exact ⟨this.apps.trans ih.apps, this.newQ.trans ih.newQ, this.waiting.trans ih.waiting, this.log.trans ih.log,
        this.byId.trans ih.byId⟩
  have never : ∀ (k : Kind), k ≠ .tryBlock → k ≠ .retry → ∀ n, N ≤ n →
      ¬ ∀ m, n ≤ m → ∃ x, k.has x ∧ (step o (σ m) x).isSome = true := by
    intro k k1 k2 n hn hen
    obtain ⟨m, hm, hk⟩ := hf.fair k n hen
    have hp := hpost m (Nat.le_trans hn hm)
    revert hk hp
    cases ev m <;> cases k <;> simp [Kind.has, Postpones] <;> first | exact absurd rfl k1 | exact absurd rfl k2
  have happs : (σ N).apps = [] := by
    cases ha : (σ N).apps with
    | nil => rfl
    | cons a rest =>
      exfalso
      have hget : ∀ m, N ≤ m → (σ m).apps[0]? = some a := by
        intro m hm; rw [(hsame m hm).apps, ha]; rfl
      obtain ⟨b, st⟩ := a
      cases st with
      | queued =>
        refine never .work (by decide) (by decide) N (Nat.le_refl _) (fun m hm => ⟨.work 0, trivial, ?_⟩)
        simp only [step, hget m hm]
        split <;> rfl
      | inRPC =>
        refine never .rpc (by decide) (by decide) N (Nat.le_refl _) (fun m hm => ⟨.rpcReturn 0 none, trivial, ?_⟩)
        simp only [step, hget m hm]; rfl
      | done e =>
        refine never .status (by decide) (by decide) N (Nat.le_refl _) (fun m hm => ⟨.status 0, trivial, ?_⟩)
        simp only [step, hget m hm, hhung m]; rfl
      | delaying t t' =>
        obtain ⟨n0, hn0⟩ := hf.time t
        refine never .delay (by decide) (by decide) (max N n0) (Nat.le_max_left _ _)
          (fun m hm => ⟨.delayDone 0, trivial, ?_⟩)
        have hm1 : N ≤ m := Nat.le_trans (Nat.le_max_left _ _) hm
        have hm2 : n0 ≤ m := Nat.le_trans (Nat.le_max_right _ _) hm
        simp only [step, hget m hm1]
        rw [if_pos (Int.le_trans hn0 (hnow _ _ hm2))]; rfl
  have hnewQ : (σ N).newQ = [] := by
    cases ha : (σ N).newQ with
    | nil => rfl
    | cons a rest =>
      exfalso
      refine never .newBlock (by decide) (by decide) N (Nat.le_refl _) (fun m hm => ⟨.newBlock 0, trivial, ?_⟩)
      simp only [step, hhung m, (hsame m hm).newQ, ha]; rfl
  have hcall : ∀ r ∈ (σ N).waiting, r ∉ answered (σ N).log := by
    intro r hr he
    obtain ⟨e, he⟩ := mem_answered he
    refine never .caller (by decide) (by decide) N (Nat.le_refl _) (fun m hm => ⟨.callerReturns r, trivial, ?_⟩)
    obtain ⟨e', he'⟩ := answerOf_isSome he
    simp only [step, (hsame m hm).waiting, (hsame m hm).log, hr, he', if_true]; rfl
  have hpend : ∀ n, N ≤ n → ∀ id, (σ n).pending.has id = false := by
    intro n hn id
    cases hb : (σ n).pending.has id with
    | false => rfl
    | true =>
      have := ((inv_reachable (hreach n)).pend id).1 hb
      rw [(hsame n hn).apps, happs] at this; cases this
  have hkind : ∀ n, N ≤ n → (∃ d, ev n = .tick d) ∨ ∃ i, ev n = .retryDue i := by
    intro n hn
    have hp := hpost n hn
    revert hp
    cases he : ev n with
    | tick d => exact fun _ => Or.inl ⟨d, rfl⟩
    | retryDue i => exact fun _ => Or.inr ⟨i, rfl⟩
    | tryBlock i => rintro ⟨b, _, hb⟩; rw [hpend n hn] at hb; cases hb
    | _ => exact fun hp => hp.elim
  have htries : ∀ n, N ≤ n → (σ n).tries = [] := by
    intro n hn
    cases ht : (σ n).tries with
    | nil => rfl
    | cons x xs =>
      exfalso
      have hne : ∀ m, n ≤ m → (σ m).tries ≠ [] := by
        intro m hm
        induction m, hm using Nat.le_induction with
        | base => rw [ht]; simp
        | succ m hm ih =>
          rcases hkind m (Nat.le_trans hn hm) with ⟨d, he⟩ | ⟨i, he⟩
          · have := hf.exec m
            rw [he] at this
            rw [step_tick this]; exact ih
          · have := hf.exec m
            rw [he] at this
            obtain ⟨t, b, _, _, hs⟩ := step_retryDue this
            rw [hs]; simp [trySend]
      obtain ⟨m, hm, hk⟩ := hf.fair .tryBlock n (fun m hm => ⟨.tryBlock 0, trivial, by
        cases hx : (σ m).tries with
        | nil => exact absurd hx (hne m hm)
        | cons y ys => simp only [step, hhung m, hx]; rfl⟩)
      rcases hkind m (Nat.le_trans hn hm) with ⟨d, he⟩ | ⟨i, he⟩ <;> rw [he] at hk <;> exact hk
  have hretries : ∀ n, N ≤ n → (σ n).retries = [] := by
    intro n hn
    have hticks : ∀ m, N ≤ m → ∃ d, ev m = .tick d := by
      intro m hm
      rcases hkind m hm with h | ⟨i, he⟩
      · exact h
      · exfalso
        have := hf.exec m
        rw [he] at this
        obtain ⟨t, b, _, _, hs⟩ := step_retryDue this
        have h2 := htries (m + 1) (Nat.le_succ_of_le hm)
        rw [hs] at h2; simp [trySend] at h2
    cases ht : (σ n).retries with
    | nil => rfl
    | cons x xs =>
      exfalso
      have hc : ∀ m, n ≤ m → (σ m).retries = x :: xs := by
        intro m hm
        induction m, hm using Nat.le_induction with
        | base => exact ht
        | succ m hm ih =>
          obtain ⟨d, he⟩ := hticks m (Nat.le_trans hn hm)
          have := hf.exec m
          rw [he] at this
          rw [step_tick this]; exact ih
      obtain ⟨t, b⟩ := x
      obtain ⟨n0, hn0⟩ := hf.time t
      obtain ⟨m, hm, hk⟩ := hf.fair .retry (max n n0) (fun m hm => ⟨.retryDue 0, trivial, by
        have hm1 : n ≤ m := Nat.le_trans (Nat.le_max_left _ _) hm
        have hm2 : n0 ≤ m := Nat.le_trans (Nat.le_max_right _ _) hm
        simp only [step, hc m hm1, List.getElem?_cons_zero]
        rw [if_pos (Int.le_trans hn0 (hnow _ _ hm2))]; rfl⟩)
      obtain ⟨d, he⟩ := hticks m (Nat.le_trans hn (Nat.le_trans (Nat.le_max_left _ _) hm))
      rw [he] at hk; exact hk
  refine ⟨N, fun n hn => ⟨⟨by rw [(hsame n hn).newQ]; exact hnewQ, htries n hn, hretries n hn,
    by rw [(hsame n hn).apps]; exact happs, ?_⟩, (hsame n hn).log, (hsame n hn).byId⟩⟩
  rw [(hsame n hn).waiting, (hsame n hn).log]; exact hcall

/-! ## C90 -/

/-- C90. Without new calls and announcements the applicator comes to rest: from some point on nothing is queued, scheduled or
being applied, nothing more is logged, every caller that has an answer has fetched it, and the blocks that still wait are
exactly those that were put aside because their parent is missing. -/
theorem C90_comes_to_rest {o : AppOpts} {σ : Nat → AState} {ev : Nat → Label} (h0 : Reachable o (σ 0))
    (hh : (σ 0).hung = false) (hf : FairQuiet o σ ev) :
    ∃ N, ∀ n, N ≤ n → AtRest (σ n) ∧ (σ n).log = (σ N).log ∧ ∀ b, Waiting (σ n) b → Parked (σ n).log b.id := by
  obtain ⟨N, hN⟩ := rest_point h0 hh hf
  refine ⟨N, fun n hn => ⟨(hN n hn).1, (hN n hn).2.1, ?_⟩⟩
  rintro b ⟨x, hx, _⟩
  have hr := exec_reachable hf.exec h0 n
  rcases park_reachable hr b.id x hx with ⟨t, ht, _⟩ | hp | hp
  · rw [(hN n hn).1.tries] at ht; cases ht
  · have := ((inv_reachable hr).pend b.id).1 hp
    rw [(hN n hn).1.apps] at this; cases this
  · exact hp

/-- C90, per request: in the end every call has returned or was refused, or its block waits for a missing parent. -/
theorem C90_every_request {o : AppOpts} {σ : Nat → AState} {ev : Nat → Label} (h0 : Reachable o (σ 0))
    (hh : (σ 0).hung = false) (hf : FairQuiet o σ ev) :
    ∃ N, ∀ n, N ≤ n → ∀ r b, Obs.call r b ∈ (σ n).log →
      (∃ e, Obs.returned r e ∈ (σ n).log) ∨ (∃ e, Obs.refused r e ∈ (σ n).log) ∨
      ∃ c x, (σ n).byId.get c = some x ∧ r ∈ x.chans ∧ Parked (σ n).log c := by
  obtain ⟨N, hN⟩ := rest_point h0 hh hf
  refine ⟨N, fun n hn r b hc => ?_⟩
  have hr := exec_reachable hf.exec h0 n
  have hlt := (prov_reachable hr).callLt r b hc
  have hcal := (callers_reachable hr).mem_iff.2 (List.mem_range.2 hlt)
  simp only [List.mem_append] at hcal
  rcases hcal with (hw | hret) | href
  · have hcount := C08_exactly_once hr r b hc
    have h1 : (queuedCalls (σ n)).count r = 0 := by
      unfold queuedCalls; rw [(hN n hn).1.newQ]; rfl
    have h2 : (answered (σ n).log).count r = 0 := by
      rw [List.count_eq_zero]
      exact (hN n hn).1.callers r hw
    by_cases h3 : (refusedCalls (σ n).log).count r = 0
    · right; right
      have h4 : r ∈ held (σ n) := List.count_pos_iff.1 (by omega)
      obtain ⟨⟨c, x⟩, hx, hrx⟩ := List.mem_flatMap.1 h4
      have hg := (GoMap.get_eq_some_iff _ _ _).2 hx
      refine ⟨c, x, hg, hrx, ?_⟩
      rcases park_reachable hr c x hg with ⟨t, ht, _⟩ | hp | hp
      · rw [(hN n hn).1.tries] at ht; cases ht
      · have := ((inv_reachable hr).pend c).1 hp
        rw [(hN n hn).1.apps] at this; cases this
      · exact hp
    · right; left
      have := List.count_pos_iff.1 (Nat.pos_of_ne_zero h3)
      obtain ⟨x, hx, hx'⟩ := List.mem_filterMap.1 this
      cases x <;> simp at hx'
      subst hx'; exact ⟨_, hx⟩
  · left
    obtain ⟨x, hx, hx'⟩ := List.mem_filterMap.1 hret
    cases x <;> simp at hx'
    subst hx'; exact ⟨_, hx⟩
  · right; left
    obtain ⟨x, hx, hx'⟩ := List.mem_filterMap.1 href
    cases x <;> simp at hx'
    subst hx'; exact ⟨_, hx⟩

/-- C18 under fairness: if the parent of a recent waiting block is accepted and nothing more comes in, the block is applied
again. Missing for the full statement: blocks older than the force threshold (`C18_wakeup_refuted`). -/
theorem C18_wakeup_fair_partial {o : AppOpts} {s : AState} {l : Label} {b : Blk} {σ : Nat → AState} {ev : Nat → Label}
    (h : Reachable o s) (hacc : Accepts s l b.previous) (hst : step o s l = some (σ 0)) (hw : Waiting s b)
    (hts : b.timestamp.toNat < 2 ^ 63)
    (hth : -9223372036854775808 < o.forceChildRequestThreshold ∧ o.forceChildRequestThreshold ≤ 9223372036854775807)
    (hrec : s.now - b.timestamp.toNat * 1000000 < o.forceChildRequestThreshold)
    (hh : (σ 0).hung = false) (hf : FairQuiet o σ ev) :
    ∃ n, starts (σ 0).log b < starts (σ n).log b := by
  obtain ⟨N, hN⟩ := rest_point (reachable_step h hst) hh hf
  obtain ⟨ls, hr⟩ := exec_run hf.exec N
  rcases C18_wakeup_partial h hacc hst hw hts hth hrec hr with h1 | h1 | ⟨t, h1⟩
  · exact ⟨N, h1⟩
  · rw [(hN N (Nat.le_refl _)).1.tries] at h1; cases h1
  · rw [(hN N (Nat.le_refl _)).1.retries] at h1; cases h1

/-! ### A fair quiet execution -/

/-- Executions that run through a list and then only let time pass. -/
def thenTicks (o : AppOpts) (s : AState) (ls : List Label) : Nat → AState
  | 0 => s
  | n + 1 => (step o (thenTicks o s ls n) (ls.getD n (.tick 1))).getD (thenTicks o s ls n)

theorem thenTicks_exec {o : AppOpts} {s s' : AState} {ls : List Label} (hr : App.run o s ls = some s') :
    Exec o (thenTicks o s ls) (fun n => ls.getD n (.tick 1)) ∧
    ∀ k, thenTicks o s ls (ls.length + k) = { s' with now := s'.now + k } := by
  have h1 : ∀ n, n ≤ ls.length → App.run o s (ls.take n) = some (thenTicks o s ls n) := by
    intro n
    induction n with
    | zero => intro _; rfl
    | succ n ih =>
      intro hn
      have ih := ih (by omega)
      have hl : ls[n]? = some ls[n] := List.getElem?_eq_getElem (by omega)
      have hsplit : ls.take (n + 1) ++ ls.drop (n + 1) = ls := List.take_append_drop _ _
      have hr' := hr
      rw [← hsplit, run_append] at hr'
      have ht : ls.take (n + 1) = ls.take n ++ [ls[n]] := List.take_succ_eq_append_getElem (by omega)
      rw [ht, run_append, ih] at hr' ⊢
      simp only [Option.bind_some] at hr' ⊢
      have hd : ls.getD n (.tick 1) = ls[n] := by simp [List.getD, hl]
      simp only [thenTicks, hd]
      cases hs : step o (thenTicks o s ls n) ls[n] with
      | none => simp [App.run, hs] at hr'
      | some t => simp [App.run, hs]
  have h2 : thenTicks o s ls ls.length = s' := by
    have := h1 ls.length (Nat.le_refl _)
    rw [List.take_length, hr] at this
    exact (Option.some.inj this).symm
  have h3 : ∀ k, thenTicks o s ls (ls.length + k) = { s' with now := s'.now + k } := by
    intro k
    induction k with
    | zero => rw [Nat.add_zero, h2]; simp
    | succ k ih =>
      have hd : ls.getD (ls.length + k) (.tick 1) = .tick 1 := by simp [List.getD]
      rw [← Nat.add_assoc]
      simp only [thenTicks, hd, ih, step, Option.getD_some]
      congr 1
      push_cast; omega
  refine ⟨?_, h3⟩
  intro n
  by_cases hn : n < ls.length
  · have a := h1 (n + 1) hn
    have b := h1 n (Nat.le_of_lt hn)
    have ht : ls.take (n + 1) = ls.take n ++ [ls[n]] := List.take_succ_eq_append_getElem hn
    rw [ht, run_append, b] at a
    simp only [Option.bind_some] at a
    have hd : ls.getD n (.tick 1) = ls[n] := by simp [List.getD, hn]
    dsimp only
    rw [hd]
    simp only [App.run] at a
    split at a
    · rename_i t hs; rw [hs]; exact a
    · cases a
  · obtain ⟨k, rfl⟩ : ∃ k, n = ls.length + k := ⟨n - ls.length, by omega⟩
    have hd : ls.getD (ls.length + k) (.tick 1) = .tick 1 := by simp [List.getD]
    dsimp only
    rw [hd, Nat.add_assoc, h3, h3]
    simp only [step]
    congr 2
    push_cast; omega

/-- A finite quiet run into rest extends to a fair quiet execution. -/
theorem fairQuiet_of_run {o : AppOpts} {s s' : AState} {ls : List Label} (hr : App.run o s ls = some s')
    (hq : ∀ l ∈ ls, Quiet l) (hrest : AtRest s') :
    FairQuiet o (thenTicks o s ls) (fun n => ls.getD n (.tick 1)) := by
  obtain ⟨h1, h2⟩ := thenTicks_exec hr
  refine ⟨h1, ?_, ?_, ?_⟩
  · intro n
    by_cases hn : n < ls.length
    · have hd : ls.getD n (.tick 1) = ls[n] := by simp [List.getD, hn]
      rw [hd]; exact hq _ (List.getElem_mem hn)
    · have hd : ls.getD n (.tick 1) = .tick 1 := by
        simp [List.getD, List.getElem?_eq_none (Nat.le_of_not_lt hn)]
      rw [hd]; trivial
  · intro T
    refine ⟨ls.length + (T - s'.now).toNat, ?_⟩
    rw [h2]; simp only; omega
  · intro k n hen
    exfalso
    obtain ⟨x, hk, hx⟩ := hen (ls.length + n) (by omega)
    rw [h2] at hx
    cases k <;> cases x <;> simp only [Kind.has] at hk <;>
      simp only [step, hrest.newQ, hrest.tries, hrest.apps, hrest.retries, List.getElem?_nil] at hx
    case caller.callerReturns r =>
      split at hx
      · rename_i hw
        cases ha : answerOf s'.log r with
        | none => rw [ha] at hx; cases hx
        | some e =>
          unfold answerOf at ha
          obtain ⟨y, hy, hy'⟩ := List.exists_of_findSome?_eq_some ha
          cases y <;> simp at hy'
          obtain ⟨rfl, rfl⟩ := hy'
          exact hrest.callers _ hw (List.mem_filterMap.2 ⟨_, hy, rfl⟩)
      · cases hx
    all_goals first | (cases hx; done) | (split at hx <;> first | (cases hx; done) | (rename_i hn; cases hn; done))

/-- From `exS1` (the parent is with the chain, child and far block wait) to rest: the parent and then the child are accepted,
both callers return, the far block stays. -/
def exEnd : List Label :=
  [.rpcReturn 0 none, .status 0, .callerReturns 0, .tryBlock 0, .work 0, .rpcReturn 0 none, .status 0, .callerReturns 1]

example : ∃ s', App.run exO exS1 exEnd = some s' ∧ s'.waiting = [2] ∧ waitingBlocks s' = [exFar] ∧
    FairQuiet exO (thenTicks exO exS1 exEnd) (fun n => exEnd.getD n (.tick 1)) ∧ exS1.hung = false :=
  ⟨_, rfl, by decide +kernel, by decide +kernel,
    fairQuiet_of_run rfl (by simp [exEnd, Quiet, errIs])
      ⟨by decide +kernel, by decide +kernel, by decide +kernel, by decide +kernel, by decide +kernel⟩, by decide +kernel⟩

/-! ## C91 -/

/-- The claim: there is a bound on how often a block is submitted without time passing, for a single call. -/
def RetriesPaced (o : AppOpts) (hi lib : UInt64) (now : Int) : Prop :=
  ∃ n, ∀ ls s b, App.run o (App.init hi lib now) ls = some s → (∀ d, Label.tick d ∉ ls) →
    ls.countP (fun | .applyBlock _ => true | _ => false) ≤ 1 → submitsOf s.log b ≤ n

/-- The verdict after which a block is resubmitted. -/
def stateVerdict : Option Err := some (.sentinel .blockState)

/-- One round: the wake-up, the submission, the block-state error, the next wake-up. -/
def stateRound : List Label := [.tryBlock 0, .work 0, .rpcReturn 0 stateVerdict, .status 0]

def stateRounds : Nat → List Label
  | 0 => []
  | n + 1 => stateRound ++ stateRounds n

/-- About to be tried, nothing else under way. -/
structure AboutToTry (o : AppOpts) (b : Blk) (s : AState) : Prop where
  tries : s.tries = [(b, false)]
  apps : s.apps = []
  pending : ∀ id, s.pending.has id = false
  hung : s.hung = false
  height : ¬ b.height ≤ s.lib
  early : ¬ goBlockTime b.timestamp > s.now + o.delayThreshold

theorem stateRound_run {o : AppOpts} {b : Blk} {s : AState} (h : AboutToTry o b s) :
    ∃ s', App.run o s stateRound = some s' ∧ AboutToTry o b s' ∧ submitsOf s'.log b = submitsOf s.log b + 1 := by
  have h1 : step o s (.tryBlock 0) = some { s with
      tries := [], pending := s.pending.set b.id (), apps := [⟨b, .queued⟩], log := .start b :: s.log } := by
    simp only [step, h.hung, h.tries, List.getElem?_cons_zero, List.eraseIdx_cons_zero, handleTry, h.pending b.id, h.apps,
      beginApp, if_neg h.early, Bool.false_eq_true, if_false, List.nil_append]
  refine ⟨{ s with
      tries := [(b, false)], pending := (s.pending.set b.id ()).del b.id, apps := []
      log := .status b stateVerdict :: .verdict b stateVerdict :: .submit b :: .start b :: s.log }, ?_, ?_, ?_⟩
  · simp only [stateRound, App.run, h1]
    simp only [step, List.getElem?_cons_zero, if_neg h.height, List.set_cons_zero, h.hung, List.eraseIdx_cons_zero,
      handleStatus, trySend, List.nil_append]
    rfl
  · refine ⟨rfl, rfl, ?_, h.hung, h.height, h.early⟩
    intro id
    have := h.pending id
    rw [GoMap.has_eq] at this ⊢
    simp only [GoMap.get_del, GoMap.get_set]
    split
    · rfl
    · exact this
  · simp [submitsOf]

theorem stateRounds_run {o : AppOpts} {b : Blk} (n : Nat) {s : AState} (h : AboutToTry o b s) :
    ∃ s', App.run o s (stateRounds n) = some s' ∧ submitsOf s'.log b = submitsOf s.log b + n := by
  induction n generalizing s with
  | zero => exact ⟨s, rfl, rfl⟩
  | succ n ih =>
    obtain ⟨s1, hr, ha, hc⟩ := stateRound_run h
    obtain ⟨s2, hr2, hc2⟩ := ih ha
    exact ⟨s2, by rw [stateRounds, run_append, hr]; exact hr2, by omega⟩

/-- C91 refuted (default options; `stateRounds_run` for all options and blocks): as long as the chain answers with the block-state error, the block is
resubmitted at once, without pause and without limit, and its caller gets no answer. -/
theorem C91_paced_refuted : ¬ RetriesPaced exO 10 5 0 := by
  rintro ⟨n, h⟩
  have hs : ∃ s, App.run exO exS0 [.applyBlock exP, .newBlock 0] = some s ∧ AboutToTry exO exP s :=
    ⟨_, rfl, ⟨by decide +kernel, by decide +kernel, fun id => rfl, by decide +kernel, by decide +kernel, by decide +kernel⟩⟩
  obtain ⟨s, hr, ha⟩ := hs
  obtain ⟨s', hr', hc⟩ := stateRounds_run (n + 1) ha
  have hno : ∀ k d, Label.tick d ∉ stateRounds k := by
    intro k d
    induction k with
    | zero => simp [stateRounds]
    | succ k ih => simp [stateRounds, stateRound, ih]
  have hcount : ∀ k, (stateRounds k).countP (fun | .applyBlock _ => true | _ => false) = 0 := by
    intro k
    induction k with
    | zero => rfl
    | succ k ih => rw [stateRounds, List.countP_append, ih]; rfl
  have := h ([.applyBlock exP, .newBlock 0] ++ stateRounds (n + 1)) s' exP (by
      rw [run_append]
      have : App.run exO (App.init 10 5 0) [.applyBlock exP, .newBlock 0] = some s := hr
      rw [this]; exact hr')
    (by intro d; rw [List.mem_append]; rintro (h | h)
        · simp at h
        · exact hno _ _ h)
    (by rw [List.countP_append, hcount]; decide)
  omega

/-- C91 as far as it holds: if the chain never answers with the block-state error and nothing more comes in, no block is
submitted any more after some point. -/
theorem C91_bounded_partial {o : AppOpts} {σ : Nat → AState} {ev : Nat → Label} (h0 : Reachable o (σ 0))
    (hh : (σ 0).hung = false) (hf : FairQuiet o σ ev) :
    ∃ N, ∀ n, N ≤ n → ∀ b, submitsOf (σ n).log b = submitsOf (σ N).log b := by
  obtain ⟨N, hN⟩ := rest_point h0 hh hf
  exact ⟨N, fun n hn b => by rw [(hN n hn).2.1]⟩

end KP2P

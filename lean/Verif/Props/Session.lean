import Verif.Proof.Session
import Verif.Spec.Session
/-!
# C43: the life-cycle of a session
-/

namespace KP2P
open KP2P.Session KP2P.PeerConn Spec.Session

private theorem shook_cons {log : List Ev} {x : Ev} (h : Shook log) : Shook (x :: log) := by
  obtain ⟨cs, h⟩ := h; exact ⟨cs, List.mem_cons_of_mem _ h⟩

private theorem shook_cons_iff {log : List Ev} {x : Ev} (hx : ∀ cs, x ≠ .handshake cs none) :
    Shook (x :: log) ↔ Shook log := by
  constructor
  · rintro ⟨cs, h⟩
    rcases List.mem_cons.1 h with h | h
    · exact absurd h.symm (hx cs)
    · exact ⟨cs, h⟩
  · exact shook_cons

/-- The event may come after the events `pre`. -/
private def OkAfter (pre : List Ev) : Ev → Prop
  | .handshake _ _ => ¬ Shook pre
  | .round _ _ => Shook pre
  | _ => True

/-- Every event stands in the right order after what came before it. -/
private def Ordered : List Ev → Prop
  | [] => True
  | x :: pre => OkAfter pre x ∧ Ordered pre

private theorem ordered_split {log post pre : List Ev} {x : Ev} (h : Ordered log) (e : log = post ++ x :: pre) :
    OkAfter pre x := by
  induction post generalizing log with
  | nil => rw [e] at h; exact h.1
  | cons y post ih => rw [e] at h; exact ih h.2 rfl

private structure OrderInv (s : Session.State) : Prop where
  early : s.phase = .handshake ∨ s.phase = .retryWait → ¬ Shook s.log
  late : ∀ e b, s.phase = .sync ∨ s.phase = .reporting e ∨ s.phase = .sleeping b → Shook s.log
  ord : Ordered s.log

private theorem orderInv_step {o : Opts} {s s' : Session.State} (h : OrderInv s) (he : Session.Eff o s s') :
    OrderInv s' := by
  have hl : ∀ {p}, s.phase = p → (p = .sync ∨ (∃ e, p = .reporting e) ∨ ∃ b, p = .sleeping b) → Shook s.log := by
    intro p hp hq
    rcases hq with rfl | ⟨e, rfl⟩ | ⟨b, rfl⟩
    · exact h.late (.other 0) false (Or.inl hp)
    · exact h.late e false (Or.inr (Or.inl hp))
    · exact h.late (.other 0) b (Or.inr (Or.inr hp))
  cases he with
  | hsOk e v hp hr =>
    exact ⟨fun h => (by rcases h with h | h <;> cases h), fun _ _ _ => ⟨_, List.mem_cons_self ..⟩,
      h.early (Or.inl hp), h.ord⟩
  | hsFail e v err hp hr =>
    have hn := h.early (Or.inl hp)
    refine ⟨fun _ => ?_, fun e b h => (by rcases h with h | h | h <;> cases h), hn, h.ord⟩
    show ¬ Shook (Ev.handshake _ (some err) :: s.log)
    rw [shook_cons_iff (by intro cs h; cases h)]; exact hn
  | retry hp =>
    exact ⟨fun _ => h.early (Or.inr hp), fun e b h => (by rcases h with h | h | h <;> cases h), h.ord⟩
  | roundOk e hp hr =>
    have hs := hl hp (Or.inl rfl)
    exact ⟨fun h => (by rcases h with h | h <;> cases h), fun _ _ _ => shook_cons hs, hs, h.ord⟩
  | roundErr e err hp hr =>
    have hs := hl hp (Or.inl rfl)
    exact ⟨fun h => (by rcases h with h | h <;> cases h), fun _ _ _ => shook_cons hs, hs, h.ord⟩
  | roundPanic e hp hr =>
    have hs := hl hp (Or.inl rfl)
    exact ⟨fun h => (by rcases h with h | h <;> cases h), fun _ _ _ => shook_cons hs, hs, h.ord⟩
  | report e hp =>
    have hs := hl hp (Or.inr (Or.inl ⟨e, rfl⟩))
    exact ⟨fun h => (by rcases h with h | h <;> cases h), fun _ _ _ => shook_cons hs, trivial, h.ord⟩
  | wake b hp =>
    have hs := hl hp (Or.inr (Or.inr ⟨b, rfl⟩))
    exact ⟨fun h => (by rcases h with h | h <;> cases h), fun _ _ _ => hs, h.ord⟩
  | endQuiet hc hp =>
    exact ⟨fun h => (by rcases h with h | h <;> cases h), fun e b h => (by rcases h with h | h | h <;> cases h), h.ord⟩
  | endDrop hc e hp =>
    exact ⟨fun h => (by rcases h with h | h <;> cases h), fun e b h => (by rcases h with h | h | h <;> cases h),
      trivial, h.ord⟩
  | deliver i e hi =>
    refine ⟨fun hp => ?_, fun e b hp => shook_cons (h.late e b hp), trivial, h.ord⟩
    exact fun hs => h.early hp ((shook_cons_iff (by intro cs h; cases h)).1 hs)
  | giveUp hc i e hi =>
    refine ⟨fun hp => ?_, fun e b hp => shook_cons (h.late e b hp), trivial, h.ord⟩
    exact fun hs => h.early hp ((shook_cons_iff (by intro cs h; cases h)).1 hs)
  | cancel =>
    refine ⟨fun hp => ?_, fun e b hp => shook_cons (h.late e b hp), trivial, h.ord⟩
    exact fun hs => h.early hp ((shook_cons_iff (by intro cs h; cases h)).1 hs)

private theorem orderInv {o : Opts} {s : Session.State} (hr : Session.Reachable o s) : OrderInv s := by
  obtain ⟨ls, hr⟩ := hr
  refine Session.run_ind (P := OrderInv) (fun _ _ _ h hs => orderInv_step h (step_eff hs)) ls Session.init s ⟨?_, ?_, trivial⟩ hr
  · rintro _ ⟨cs, h⟩; cases h
  · intro e b h; rcases h with h | h | h <;> cases h

/-- C43. Every synchronisation round comes after a successful handshake. -/
theorem C43_no_round_before_handshake_partial (o : Opts) (s : Session.State) (hr : Session.Reachable o s)
    (post pre : List Ev) (cs : List Call) (out : Outcome) (e : s.log = post ++ .round cs out :: pre) : Shook pre :=
  ordered_split (orderInv hr).ord e

/-- C43. No handshake takes place after a successful one. -/
theorem C43_no_second_handshake_partial (o : Opts) (s : Session.State) (hr : Session.Reachable o s)
    (post pre : List Ev) (cs : List Call) (err : Option Err) (e : s.log = post ++ .handshake cs err :: pre) :
    ¬ Shook pre :=
  ordered_split (orderInv hr).ord e

/-- C43. The handshake that precedes the rounds was with a peer that matched: no block is requested from or applied for
a peer unless at some moment its answers matched our chain and every checkpoint. -/
theorem C43_rounds_need_match_partial (o : Opts) (s : Session.State) (hr : Session.Reachable o s)
    (cs : List Call) (out : Outcome) (h : Ev.round cs out ∈ s.log) :
    ∃ e : HsEnv, (PeerConn.handshake o e).err = none ∧ Ev.handshake (PeerConn.handshake o e).calls none ∈ s.log := by
  have hsh : Shook s.log := by
    obtain ⟨post, pre, e⟩ := List.append_of_mem h
    obtain ⟨cs', h'⟩ := C43_no_round_before_handshake_partial o s hr post pre cs out e
    exact ⟨cs', by rw [e]; exact List.mem_append_right _ (List.mem_cons_of_mem _ h')⟩
  obtain ⟨ls, hr⟩ := hr
  have hP : ∀ cs', Ev.handshake cs' none ∈ s.log → ∃ e : HsEnv, (PeerConn.handshake o e).err = none ∧
      cs' = (PeerConn.handshake o e).calls := by
    refine Session.run_ind (P := fun s => ∀ cs', Ev.handshake cs' none ∈ s.log → ∃ e : HsEnv,
      (PeerConn.handshake o e).err = none ∧ cs' = (PeerConn.handshake o e).calls) ?_ ls _ s ?_ hr
    · intro s l s' ih hs cs' hm
      have he := step_eff hs
      cases he with
      | hsOk e v hp hr =>
        rcases List.mem_cons.1 hm with hm | hm
        · cases hm; exact ⟨e, hr, rfl⟩
        · exact ih cs' hm
      | retry hp => exact ih cs' hm
      | wake b hp => exact ih cs' hm
      | endQuiet hc hp => exact ih cs' hm
      | _ =>
        rcases List.mem_cons.1 hm with hm | hm
        · cases hm
        · exact ih cs' hm
    · intro cs' hm; cases hm
  obtain ⟨cs', h'⟩ := hsh
  obtain ⟨e, h1, h2⟩ := hP cs' h'
  exact ⟨e, h1, by rw [← h2]; exact h'⟩

/-- The error being sent by the session's goroutine. -/
def inflight (s : Session.State) : List Err := match s.phase with | .reporting e => [e] | _ => []

private theorem perm_erase' {α : Type} {l : List α} {i : Nat} {a : α} (h : l[i]? = some a) :
    l.Perm (a :: l.eraseIdx i) := by
  induction l generalizing i with
  | nil => simp at h
  | cons b l ih =>
    cases i with
    | zero => simp at h; subst h; simp
    | succ i =>
      simp only [List.getElem?_cons_succ] at h
      rw [List.eraseIdx_cons_succ]
      exact ((ih h).cons b).trans (List.Perm.swap a b _)

private theorem count_eq_of_perm {l l' : List Err} (h : ∀ a, l.count a = l'.count a) : l.Perm l' :=
  List.perm_iff_count.2 h

/-- C43. Every failed attempt is accounted for exactly once: its error has been reported, is waiting to be reported,
or was dropped because the session had been cancelled. -/
theorem C43_one_report_per_failure_partial (o : Opts) (s : Session.State) (hr : Session.Reachable o s) :
    (reports s.log ++ drops s.log ++ s.reporters ++ inflight s).Perm (failures s.log) ∧
      (drops s.log ≠ [] → s.cancelled = true) := by
  obtain ⟨ls, hr⟩ := hr
  refine Session.run_ind (P := fun s => (reports s.log ++ drops s.log ++ s.reporters ++ inflight s).Perm (failures s.log) ∧
    (drops s.log ≠ [] → s.cancelled = true)) ?_ ls _ s ⟨List.Perm.refl _, fun h => absurd rfl h⟩ hr
  intro s l s' ⟨ih, ihd⟩ hs
  have hcnt := fun a => List.Perm.count_eq ih a
  simp only [List.count_append] at hcnt
  have he := step_eff hs
  cases he with
  | hsOk e v hp hr =>
    refine ⟨count_eq_of_perm fun a => ?_, ihd⟩
    have := hcnt a
    simp only [List.count_append, reports, drops, failures, inflight, hp, List.filterMap_cons] at this ⊢
    omega
  | hsFail e v err hp hr =>
    refine ⟨count_eq_of_perm fun a => ?_, ihd⟩
    have := hcnt a
    simp only [List.count_append, reports, drops, failures, inflight, hp, List.filterMap_cons, List.count_cons,
      List.count_nil] at this ⊢
    omega
  | retry hp =>
    refine ⟨count_eq_of_perm fun a => ?_, ihd⟩
    have := hcnt a
    simp only [List.count_append, inflight, hp] at this ⊢
    exact this
  | roundOk e hp hr =>
    refine ⟨count_eq_of_perm fun a => ?_, ihd⟩
    have := hcnt a
    simp only [List.count_append, reports, drops, failures, inflight, hp, List.filterMap_cons] at this ⊢
    exact this
  | roundErr e err hp hr =>
    refine ⟨count_eq_of_perm fun a => ?_, ihd⟩
    have := hcnt a
    simp only [List.count_append, reports, drops, failures, inflight, hp, List.filterMap_cons, List.count_cons,
      List.count_nil] at this ⊢
    omega
  | roundPanic e hp hr =>
    refine ⟨count_eq_of_perm fun a => ?_, ihd⟩
    have := hcnt a
    simp only [List.count_append, reports, drops, failures, inflight, hp, List.filterMap_cons] at this ⊢
    exact this
  | report e hp =>
    refine ⟨count_eq_of_perm fun a => ?_, ihd⟩
    have := hcnt a
    simp only [List.count_append, reports, drops, failures, inflight, hp, List.filterMap_cons, List.count_cons,
      List.count_nil] at this ⊢
    omega
  | wake b hp =>
    refine ⟨count_eq_of_perm fun a => ?_, ihd⟩
    have := hcnt a
    simp only [List.count_append, inflight, hp] at this ⊢
    exact this
  | endQuiet hc hp =>
    refine ⟨count_eq_of_perm fun a => ?_, ihd⟩
    have := hcnt a
    have h0 : inflight s = [] := by
      unfold inflight; rcases hp with hp | ⟨b, hp⟩ <;> rw [hp]
    rw [h0] at this
    simp only [List.count_append, inflight] at this ⊢
    exact this
  | endDrop hc e hp =>
    refine ⟨count_eq_of_perm fun a => ?_, fun _ => hc⟩
    have := hcnt a
    simp only [List.count_append, reports, drops, failures, inflight, hp, List.filterMap_cons, List.count_cons,
      List.count_nil] at this ⊢
    omega
  | deliver i e hi =>
    refine ⟨count_eq_of_perm fun a => ?_, ihd⟩
    have := hcnt a
    have h2 := (perm_erase' hi).count_eq a
    have h3 : ∀ l, inflight { s with reporters := s.reporters.eraseIdx i, log := l } = inflight s := fun _ => rfl
    rw [h3]
    simp only [List.count_append, reports, drops, failures, List.filterMap_cons, List.count_cons] at this h2 ⊢
    omega
  | giveUp hc i e hi =>
    refine ⟨count_eq_of_perm fun a => ?_, fun _ => hc⟩
    have := hcnt a
    have h2 := (perm_erase' hi).count_eq a
    have h3 : ∀ l, inflight { s with reporters := s.reporters.eraseIdx i, log := l } = inflight s := fun _ => rfl
    rw [h3]
    simp only [List.count_append, reports, drops, failures, List.filterMap_cons, List.count_cons] at this h2 ⊢
    omega
  | cancel =>
    refine ⟨count_eq_of_perm fun a => ?_, fun _ => rfl⟩
    have := hcnt a
    have h3 : inflight { s with cancelled := true, log := .cancel :: s.log } = inflight s := rfl
    rw [h3]
    simp only [List.count_append, reports, drops, failures, List.filterMap_cons] at this ⊢
    exact this

/-- C43, the intended claim about cancellation: nothing starts after it. -/
def QuietAfterCancel (s : Session.State) : Prop :=
  ∀ post pre, s.log = post ++ .cancel :: pre → activity post = []

/-- C43 as far as it holds: once the session has noticed the cancellation there is no further handshake or round, and
it never wakes up again. -/
theorem C43_quiet_after_end_partial (o : Opts) (s s' : Session.State) (ls : List Session.Label)
    (hp : s.phase = .ended) (hr : Session.run o s ls = some s') :
    s'.phase = .ended ∧ activity s'.log = activity s.log := by
  refine Session.run_ind (o := o) (P := fun x => x.phase = .ended ∧ activity x.log = activity s.log) ?_ ls s s' ⟨hp, rfl⟩ hr
  rintro x l x' ⟨h1, h2⟩ hs
  have he := step_eff hs
  cases he with
  | deliver i e hi => exact ⟨h1, h2⟩
  | giveUp hc i e hi => exact ⟨h1, h2⟩
  | cancel => exact ⟨h1, h2⟩
  | hsOk e v hp' hr => rw [h1] at hp'; cases hp'
  | hsFail e v err hp' hr => rw [h1] at hp'; cases hp'
  | retry hp' => rw [h1] at hp'; cases hp'
  | roundOk e hp' hr => rw [h1] at hp'; cases hp'
  | roundErr e err hp' hr => rw [h1] at hp'; cases hp'
  | roundPanic e hp' hr => rw [h1] at hp'; cases hp'
  | report e hp' => rw [h1] at hp'; cases hp'
  | wake b hp' => rw [h1] at hp'; cases hp'
  | endQuiet hc hp' => exact ⟨rfl, h2⟩
  | endDrop hc e hp' => rw [h1] at hp'; cases hp'

/-- C42, for sessions: a session is not synced until its first round, each round sets the status as described, and nothing else
changes it. -/
theorem C42_session (o : Opts) :
    (∀ ls s, Session.run o Session.init ls = some s → (∀ e, Session.Label.round e ∉ ls) → s.synced = false) ∧
    (∀ s s' e, Session.step o s (.round e) = some s' → s'.synced = (requestSyncBlocks o e s.synced).synced) ∧
    ∀ s s' l, (∀ e, l ≠ Session.Label.round e) → Session.step o s l = some s' → s'.synced = s.synced := by
  have other : ∀ s s' l, (∀ e, l ≠ Session.Label.round e) → Session.step o s l = some s' → s'.synced = s.synced := by
    intro s s' l hl hs
    cases l with
    | round e => exact absurd rfl (hl e)
    | _ => simp only [Session.step] at hs <;> (repeat' split at hs) <;> first | (cases hs; rfl) | cases hs
  refine ⟨?_, ?_, other⟩
  · suffices h : ∀ ls s0 s, s0.synced = false → Session.run o s0 ls = some s → (∀ e, Session.Label.round e ∉ ls) → s.synced = false from
      fun ls s => h ls _ s rfl
    intro ls
    induction ls with
    | nil => intro s0 s h0 hr _; cases hr; exact h0
    | cons l ls ih =>
      intro s0 s h0 hr hno
      simp only [Session.run] at hr
      split at hr
      · rename_i s1 h1
        refine ih s1 s ?_ hr fun e he => hno e (List.mem_cons_of_mem _ he)
        rw [other s0 s1 l (fun e he => hno e (by rw [he]; exact List.mem_cons_self ..)) h1, h0]
      · cases hr
  · intro s s' e hs
    simp only [Session.step] at hs
    (repeat' split at hs) <;> first | (cases hs; rfl) | cases hs

/-- C43. A cancelled session can end at once whenever it waits: for a timer or for the error handler. -/
theorem C43_can_end_partial (o : Opts) (s : Session.State) (hc : s.cancelled = true)
    (hp : s.phase = .retryWait ∨ (∃ b, s.phase = .sleeping b) ∨ ∃ e, s.phase = .reporting e) :
    ∃ s', Session.step o s .seeDone = some s' ∧ s'.phase = .ended := by
  rcases hp with hp | ⟨b, hp⟩ | ⟨e, hp⟩
  · exact ⟨{ s with phase := .ended }, by simp [Session.step, hc, hp], rfl⟩
  · exact ⟨{ s with phase := .ended }, by simp [Session.step, hc, hp], rfl⟩
  · exact ⟨{ s with phase := .ended, log := .drop e :: s.log }, by simp [Session.step, hc, hp], rfl⟩

private def okHs : HsEnv where
  version := .ok ⟨1, 0, 0⟩
  localChainID := .ok [1]
  peerChainID := .ok [1]
  peerHead := .ok ([2], 2)
  ancestor := fun _ _ _ => .error (.other 0)

private def badHs : HsEnv := { okHs with peerHead := .error (wrapS .peerRPC (.other 3)) }

private def failRound : SyncEnv where
  lib := ⟨[], 0⟩
  peerHead := .error (wrapS .peerRPC .ctxCanceled)
  blocksByID := fun _ => .ok []
  ancestor := fun _ _ => .ok []
  blocks := fun _ _ _ => .ok []
  apply := fun _ _ => none

private def nothing : SyncEnv := { failRound with peerHead := .ok ([], 0) }

private def racy : Session.State :=
  (Session.run Opts.default Session.init
    [.handshake badHs, .deliver 0, .retryTimer, .handshake okHs, .round nothing, .cancel, .sleepTimer, .round failRound,
      .report]).getD Session.init

/-- C43 is false as stated: when the timer and the cancellation are ready together the session may do one more round
after the cancellation, and report the error that the cancellation itself caused. -/
theorem C43_quiet_refuted : ∃ s, Session.Reachable Opts.default s ∧ ¬ QuietAfterCancel s := by
  refine ⟨racy, ?_, fun h => ?_⟩
  · unfold racy
    exact Session.reachable_getD _ _ _ (by decide +kernel)
  · have := h [.report (wrapS .peerRPC .ctxCanceled), .round [.peerHead] (.err (wrapS .peerRPC .ctxCanceled))]
      (racy.log.drop 3) (by decide +kernel)
    cases this

/- The execution has a failed handshake that was reported, a successful one, and two rounds. -/
example : reports racy.log = [wrapS .peerRPC .ctxCanceled, wrapS .peerRPC (.other 3)] ∧
    failures racy.log = [wrapS .peerRPC .ctxCanceled, wrapS .peerRPC (.other 3)] ∧
    (activity racy.log).length = 4 := by decide +kernel

end KP2P

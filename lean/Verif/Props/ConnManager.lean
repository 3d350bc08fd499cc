import Verif.Proof.ConnManager
import Mathlib.Data.List.Induction
/-!
# C34, C35, C36, C60, C61, C62: the connection manager
-/

namespace KP2P
open Spec CM

def exA : MAddr := ⟨[1], []⟩
def exB' : MAddr := ⟨[2], []⟩
def exC1 : Conn := ⟨[7], exA, 1⟩
def exC2 : Conn := ⟨[7], exB', 2⟩
def exC3 : Conn := ⟨[8], exB', 3⟩

/-! ## C34 -/

/-- C34, what holds: if no peer ever has two simultaneous connections, the three queries agree with the set of open
connections. -/
theorem C34_queries_partial (evs : List Event) (h : SingleConns evs) :
    (∀ p, isConnected (run evs) p = true ↔ ∃ c ∈ openConns evs, c.peer = p) ∧
    (∀ p a, getPeerAddress (run evs) p = some a ↔ ∃ c ∈ openConns evs, c.peer = p ∧ c.addr = a) ∧
    getNumConnections (run evs) = (openConns evs).length := by
  obtain ⟨_, h1, h2, _, h4⟩ := single_inv evs h
  refine ⟨fun p => ?_, fun p a => ?_, h2⟩
  · unfold isConnected
    rw [GoMap.has_iff]
    constructor
    · rintro ⟨x, hx⟩
      have hp := h4 p x hx
      exact ⟨x.conn, (h1 _).1 ⟨x, by rw [hp]; exact hx, rfl⟩, hp⟩
    · rintro ⟨c, hc, rfl⟩
      obtain ⟨x, hx, _⟩ := (h1 c).2 hc
      exact ⟨x, hx⟩
  · unfold getPeerAddress
    rw [Option.map_eq_some_iff]
    constructor
    · rintro ⟨x, hx, ha⟩
      have hp := h4 p x hx
      exact ⟨x.conn, (h1 _).1 ⟨x, by rw [hp]; exact hx, rfl⟩, hp, ha⟩
    · rintro ⟨c, hc, rfl, rfl⟩
      obtain ⟨x, hx, hxc⟩ := (h1 c).2 hc
      exact ⟨x, hx, by rw [hxc]⟩

/-- C34, exact behaviour in general: a peer counts as connected iff it was reported connected and none of its
connections was reported closed since. -/
theorem C34_exact (evs : List Event) (hs : Event.shutdown ∉ evs) (p : Bytes) :
    isConnected (run evs) p = true ↔ UpSince evs p := tracked_iff evs hs p

/-- C34 refuted: a peer with two connections of which one closes is forgotten although it is still connected — it is
not counted, has no address, and (C30) its errors are ignored. -/
theorem C34_queries_refuted :
    let evs : List Event := [.connected exC1, .connected exC2, .disconnected exC2]
    openConns evs = [exC1] ∧ isConnected (run evs) exC1.peer = false ∧
      getPeerAddress (run evs) exC1.peer = none ∧ getNumConnections (run evs) = 0 := by
  decide +kernel

example : SingleConns [.connected exC1, .connected exC3, .disconnected exC1] := by
  intro pre e post h
  match pre, h with
  | [], h => simp at h; obtain ⟨rfl, _⟩ := h; decide +kernel
  | [_], h => simp at h; obtain ⟨rfl, rfl, _⟩ := h; decide +kernel
  | [_, _], h => simp at h; obtain ⟨rfl, rfl, rfl, _⟩ := h; decide +kernel
  | _ :: _ :: _ :: pre, h => simp at h

/-! ## C35 -/

/-- The uncancelled sessions of a peer. -/
def liveSessions (s : CM.State) (p : Bytes) : List Nat :=
  (List.range s.started.length).filter fun i => decide (s.started[i]? = some p ∧ i ∉ s.cancelled)

/-- C35. Each tracked peer has exactly one uncancelled session, an untracked one has none. -/
theorem C35_one_session (evs : List Event) (p : Bytes) :
    (liveSessions (run evs) p).length = if isConnected (run evs) p then 1 else 0 := by
  obtain ⟨h1, h2, h3⟩ := sinv_run evs
  unfold isConnected
  cases hg : (run evs).peers.get p with
  | none =>
    rw [GoMap.has_eq, hg]
    simp only [Option.isSome_none, Bool.false_eq_true, if_false]
    unfold liveSessions
    rw [List.length_eq_zero_iff, List.filter_eq_nil_iff]
    intro i _ hc
    simp only [decide_eq_true_eq] at hc
    obtain ⟨x, hx, _⟩ := h2 i p hc.1 hc.2
    rw [hg] at hx; cases hx
  | some x =>
    rw [GoMap.has_eq, hg]
    simp only [Option.isSome_some, if_true]
    obtain ⟨ha, hb⟩ := h1 p x hg
    have hlt : x.session < (run evs).started.length := (List.getElem?_eq_some_iff.1 ha).1
    have hmem : ∀ i, i ∈ liveSessions (run evs) p ↔ i = x.session := by
      intro i
      unfold liveSessions
      simp only [List.mem_filter, List.mem_range, decide_eq_true_eq]
      constructor
      · rintro ⟨_, hi, hc⟩
        obtain ⟨y, hy, hyi⟩ := h2 i p hi hc
        rw [hg] at hy; cases hy; exact hyi.symm
      · rintro rfl; exact ⟨hlt, ha, hb⟩
    have hn : (liveSessions (run evs) p).Nodup := List.Nodup.filter _ List.nodup_range
    have : (liveSessions (run evs) p).Perm [x.session] := by
      rw [List.perm_ext_iff_of_nodup hn (by simp)]
      intro i; rw [hmem]; simp
    rw [this.length_eq]; rfl

/-- C35. Sessions are never revived and never change owner: a cancelled session stays cancelled, and the record of
started sessions only grows. -/
theorem C35_never_revived (evs more : List Event) :
    (∀ i ∈ (run evs).cancelled, i ∈ (run (evs ++ more)).cancelled) ∧
      (run evs).started <+: (run (evs ++ more)).started := by
  induction more using List.reverseRecOn with
  | nil => simp
  | append_singleton more e ih =>
    rw [← List.append_assoc, run_snoc]
    have := step_mono (run (evs ++ more)) e
    exact ⟨fun i hi => this.2 i (ih.1 i hi), ih.2.trans this.1⟩

/-- C35. A second connection of a tracked peer starts no second session. -/
theorem C35_no_second_session (evs : List Event) (c : Conn) (h : isConnected (run evs) c.peer = true) :
    (run (evs ++ [.connected c])).started = (run evs).started := by
  rw [run_snoc]
  unfold isConnected at h
  unfold step
  split
  · rfl
  · simp [handleConnected, h]

/-- C35. Cancelling the manager cancels every session. -/
theorem C35_shutdown (evs : List Event) (p : Bytes) : liveSessions (run (evs ++ [.shutdown])) p = [] := by
  have h := C35_one_session (evs ++ [.shutdown]) p
  have hn : isConnected (run (evs ++ [.shutdown])) p = false := by
    rw [run_snoc]
    unfold isConnected step
    split
    · rename_i hs
      have : ∀ evs : List Event, (run evs).stopped = true → (run evs).peers = ∅ := by
        intro evs
        induction evs using List.reverseRecOn with
        | nil => intro h; cases h
        | append_singleton evs e ih =>
          rw [run_snoc]
          intro h
          unfold step at h ⊢
          split
          · rename_i hs; exact ih hs
          · rename_i hs
            rw [if_neg hs] at h
            cases e with
            | shutdown => rfl
            | connected c =>
              simp only [handleConnected] at h
              split at h <;> exact absurd h hs
            | disconnected c =>
              simp only [handleDisconnected] at h
              split at h <;> exact absurd h hs
      rw [this evs hs]; rfl
    · rfl
  rw [hn] at h
  exact List.eq_nil_of_length_eq_zero (by simpa using h)

example : liveSessions (run [.connected exC1, .disconnected exC1, .connected exC2]) [7] = [1] ∧
    isConnected (run [.connected exC1]) exC2.peer = true := by decide +kernel

/-! ## C36 -/

theorem boot_run_append (s : Boot) (a b : List BootLabel) :
    s.run (a ++ b) = (s.run a).bind fun s' => s'.run b := by
  induction a generalizing s with
  | nil => rfl
  | cons l a ih =>
    simp only [List.cons_append, Boot.run]
    cases s.step l with
    | none => rfl
    | some s' => exact ih s'

/-- C36 refuted: if a peer is already connected when `Start` runs, then in no execution does the manager ever serve:
nothing is handled, no query is answered, every notification callback stays blocked. -/
theorem C36_serves_refuted (c : Conn) (rest : List Conn) (ls : List BootLabel) (s : Boot)
    (hr : (Boot.init (c :: rest)).run ls = some s) :
    s.loop = .notRunning ∧ s.handled = 0 ∧ s.answered = [] ∧
      (∀ d, BootLabel.notify d ∈ ls → d ∈ s.callbacks) ∧
      (∀ q, BootLabel.ask q ∈ ls → q ∈ s.asking) := by
  have key : ∀ (ls : List BootLabel) (s0 s : Boot), s0.phase = .announcing (c :: rest) → s0.loop = .notRunning →
      s0.handled = 0 → s0.answered = [] → s0.awaiting = [] → s0.run ls = some s →
      s.loop = .notRunning ∧ s.handled = 0 ∧ s.answered = [] ∧
      (∀ d, d ∈ s0.callbacks ∨ BootLabel.notify d ∈ ls → d ∈ s.callbacks) ∧
      (∀ q, q ∈ s0.asking ∨ BootLabel.ask q ∈ ls → q ∈ s.asking) := by
    intro ls
    induction ls with
    | nil =>
      intro s0 s h1 h2 h3 h4 h5 hr
      simp only [Boot.run, Option.some.injEq] at hr
      subst hr
      exact ⟨h2, h3, h4, by simp, by simp⟩
    | cons l ls ih =>
      intro s0 s h1 h2 h3 h4 h5 hr
      simp only [Boot.run] at hr
      cases hst : s0.step l with
      | none => rw [hst] at hr; cases hr
      | some s1 =>
        rw [hst] at hr
        simp only at hr
        cases l with
        | announce => simp [Boot.step, h1, h2] at hst
        | spawn => simp [Boot.step, h1] at hst
        | deliver d => simp [Boot.step, h2] at hst
        | accept q => simp [Boot.step, h2] at hst
        | reply q => simp [Boot.step, h2] at hst
        | giveUp q => simp [Boot.step, h5] at hst
        | notify d =>
          simp only [Boot.step, Option.some.injEq] at hst
          subst hst
          have hi := fun h1 h2 h3 h4 h5 => ih _ s h1 h2 h3 h4 h5 hr
          obtain ⟨a, b, e, f, g⟩ := hi h1 h2 h3 h4 h5
          refine ⟨a, b, e, fun x hx => f x ?_, fun q hq => g q ?_⟩
          · rcases hx with hx | hx
            · left; simp [hx]
            · rcases List.mem_cons.1 hx with hx | hx
              · left; cases hx; simp
              · right; exact hx
          · rcases hq with hq | hq
            · left; exact hq
            · right; simpa using hq
        | ask q =>
          simp only [Boot.step] at hst
          split at hst
          · cases hst
          · simp only [Option.some.injEq] at hst
            subst hst
            have hi := fun h1 h2 h3 h4 h5 => ih _ s h1 h2 h3 h4 h5 hr
            obtain ⟨a, b, e, f, g⟩ := hi h1 h2 h3 h4 h5
            refine ⟨a, b, e, fun x hx => f x ?_, fun q' hq => g q' ?_⟩
            · rcases hx with hx | hx
              · left; exact hx
              · right; simpa using hx
            · rcases hq with hq | hq
              · left; simp [hq]
              · rcases List.mem_cons.1 hq with hq | hq
                · left; cases hq; simp
                · right; exact hq
  obtain ⟨a, b, e, f, g⟩ := key ls _ s rfl rfl rfl rfl rfl hr
  exact ⟨a, b, e, fun d hd => f d (Or.inr hd), fun q hq => g q (Or.inr hq)⟩

/-- C36, what holds: if no peer is connected at start-up, the start-up step is enabled and leads to the serving loop;
and in every execution, unless a caller has given up (C61), the manager is serving or has its next step enabled. -/
theorem C36_serves_partial :
    ((Boot.init []).run [.spawn]).map (·.loop) = some .serving ∧
    ∀ (ls : List BootLabel) (s : Boot), (Boot.init []).run ls = some s → (∀ q, BootLabel.giveUp q ∉ ls) →
      s.loop = .serving ∨ (∃ s', s.step .spawn = some s' ∧ s'.loop = .serving) ∨
        ∃ q s', s.loop = .replying q ∧ s.step (.reply q) = some s' ∧ s'.loop = .serving := by
  refine ⟨by decide +kernel, ?_⟩
  have key : ∀ (ls : List BootLabel) (s0 s : Boot),
      ((s0.phase = .announcing [] ∧ s0.loop = .notRunning) ∨
        (s0.phase = .spawned ∧ (s0.loop = .serving ∨ ∃ q, s0.loop = .replying q ∧ q ∈ s0.awaiting))) →
      (∀ q, BootLabel.giveUp q ∉ ls) → s0.run ls = some s →
      ((s.phase = .announcing [] ∧ s.loop = .notRunning) ∨
        (s.phase = .spawned ∧ (s.loop = .serving ∨ ∃ q, s.loop = .replying q ∧ q ∈ s.awaiting))) := by
    intro ls
    induction ls with
    | nil => intro s0 s h _ hr; simp only [Boot.run, Option.some.injEq] at hr; subst hr; exact h
    | cons l ls ih =>
      intro s0 s h hg hr
      simp only [Boot.run] at hr
      cases hst : s0.step l with
      | none => rw [hst] at hr; cases hr
      | some s1 =>
        rw [hst] at hr
        refine ih s1 s ?_ (fun q hq => hg q (by simp [hq])) hr
        cases l with
        | announce => rcases h with ⟨h, h'⟩ | ⟨h, h'⟩ <;> simp [Boot.step, h] at hst
        | spawn =>
          rcases h with ⟨h, h'⟩ | ⟨h, h'⟩
          · simp [Boot.step, h] at hst; subst hst; right; exact ⟨rfl, Or.inl rfl⟩
          · simp [Boot.step, h] at hst
        | notify d => simp only [Boot.step, Option.some.injEq] at hst; subst hst; exact h
        | deliver d =>
          simp only [Boot.step] at hst
          split at hst
          · simp only [Option.some.injEq] at hst; subst hst; exact h
          · cases hst
        | ask q =>
          simp only [Boot.step] at hst
          split at hst
          · cases hst
          · simp only [Option.some.injEq] at hst; subst hst; exact h
        | accept q =>
          simp only [Boot.step] at hst
          split at hst
          · rename_i hc
            simp only [Option.some.injEq] at hst; subst hst
            rcases h with ⟨h, h'⟩ | ⟨h, h'⟩
            · rw [hc.2] at h'; cases h'
            · right; exact ⟨h, Or.inr ⟨q, rfl, by simp⟩⟩
          · cases hst
        | reply q =>
          simp only [Boot.step] at hst
          split at hst
          · rename_i hc
            simp only [Option.some.injEq] at hst; subst hst
            rcases h with ⟨h, h'⟩ | ⟨h, h'⟩
            · rw [hc.1] at h'; cases h'
            · right; exact ⟨h, Or.inl rfl⟩
          · cases hst
        | giveUp q => exact absurd (by simp) (hg q)
  intro ls s hr hg
  rcases key ls _ s (Or.inl ⟨rfl, rfl⟩) hg hr with ⟨h, h'⟩ | ⟨h, h' | ⟨q, h', hq⟩⟩
  · right; left; exact ⟨_, by simp only [Boot.step, h]; rfl, rfl⟩
  · left; exact h'
  · right; right
    exact ⟨q, _, h', by simp only [Boot.step, h', hq, and_self, if_true]; rfl, rfl⟩

example : ((Boot.init []).run [.notify exC1, .ask 1, .spawn, .deliver exC1, .accept 1, .reply 1]).map
    (fun s => (s.loop, s.answered)) = some (.serving, [1]) := by decide +kernel
example : ((Boot.init [exC1]).run [.notify exC3, .ask 1]).isSome = true := by decide +kernel

theorem boot_run_inv {P : List BootLabel → Boot → Prop} {already : List Conn} (h0 : P [] (Boot.init already))
    (hs : ∀ ls s l s', P ls s → s.step l = some s' → P (ls ++ [l]) s') :
    ∀ {ls : List BootLabel} {s : Boot}, (Boot.init already).run ls = some s → P ls s := by
  intro ls
  induction ls using List.reverseRecOn with
  | nil => intro s h; cases h; exact h0
  | append_singleton ls l ih =>
    intro s h
    rw [boot_run_append] at h
    cases ht : (Boot.init already).run ls with
    | none => rw [ht] at h; cases h
    | some t =>
      rw [ht] at h
      simp only [Option.bind_some, Boot.run] at h
      cases hu : t.step l with
      | none => rw [hu] at h; cases h
      | some u => rw [hu] at h; cases h; exact hs ls t l _ (ih ht) hu

/-- C36: whatever is connected at the start, every notification is either still held back or was handled once, every query
waits to be taken, waits for its reply, was answered once or was given up, and the goroutine of `Start` hands over nobody. -/
theorem C36_accounted {already : List Conn} {ls : List BootLabel} {s : Boot} (h : (Boot.init already).run ls = some s) :
    (∀ c, ls.count (.notify c) = s.callbacks.count c + ls.count (.deliver c)) ∧
    s.handled = ls.countP (fun l => match l with | .deliver _ => true | _ => false) ∧
    (∀ q, ls.count (.ask q) = s.asking.count q + ls.count (.accept q) ∧
      ls.count (.accept q) = s.awaiting.count q + ls.count (.reply q) + ls.count (.giveUp q) ∧
      s.answered.count q = ls.count (.reply q) ∧ ls.count (.reply q) ≤ 1) ∧
    .announce ∉ ls := by
  have key : ((∀ c, ls.count (.notify c) = s.callbacks.count c + ls.count (.deliver c)) ∧
    s.handled = ls.countP (fun l => match l with | .deliver _ => true | _ => false) ∧
    (∀ q, ls.count (.ask q) = s.asking.count q + ls.count (.accept q) ∧
      ls.count (.accept q) = s.awaiting.count q + ls.count (.reply q) + ls.count (.giveUp q) ∧
      s.answered.count q = ls.count (.reply q) ∧
      s.asking.count q + s.awaiting.count q + s.answered.count q ≤ 1) ∧
    .announce ∉ ls ∧ (s.loop ≠ .notRunning → s.phase = .spawned)) := by
    refine boot_run_inv (P := fun ls s => (∀ c, ls.count (.notify c) = s.callbacks.count c + ls.count (.deliver c)) ∧
      s.handled = ls.countP (fun l => match l with | .deliver _ => true | _ => false) ∧
      (∀ q, ls.count (.ask q) = s.asking.count q + ls.count (.accept q) ∧
        ls.count (.accept q) = s.awaiting.count q + ls.count (.reply q) + ls.count (.giveUp q) ∧
        s.answered.count q = ls.count (.reply q) ∧
        s.asking.count q + s.awaiting.count q + s.answered.count q ≤ 1) ∧
      .announce ∉ ls ∧ (s.loop ≠ .notRunning → s.phase = .spawned)) ?_ ?_ h
    · simp [Boot.init]
    · intro ls s l s' hi hst
      obtain ⟨h1, h2, h3, h4, h5⟩ := hi
      cases l with
      | announce =>
        exfalso
        simp only [Boot.step] at hst
        split at hst
        · rename_i hp hl
          have := h5 (by rw [hl]; exact fun h => by cases h)
          rw [hp] at this; cases this
        · cases hst
      | spawn =>
        simp only [Boot.step] at hst
        split at hst
        · cases hst
          simp [List.count_append, List.countP_append, h1, h2, h4]
          exact fun q => ⟨(h3 q).1, (h3 q).2.1, (h3 q).2.2⟩
        · cases hst
      | notify c =>
        simp only [Boot.step] at hst
        cases hst
        refine ⟨fun d => ?_, ?_, fun q => ?_, ?_, h5⟩
        · have := h1 d
          simp [List.count_append, List.count_singleton]; split <;> simp_all <;> omega
        · simp [List.countP_append, h2]
        · simpa [List.count_append] using h3 q
        · simpa using h4
      | deliver c =>
        simp only [Boot.step] at hst
        split at hst
        · rename_i hc
          cases hst
          refine ⟨fun d => ?_, ?_, fun q => ?_, ?_, h5⟩
          · have := h1 d
            have hp := List.count_pos_iff.2 hc.1
            rcases eq_or_ne c d with rfl | hne
            · simp [List.count_append, List.count_singleton, List.count_erase]; omega
            · simp [List.count_append, List.count_singleton, List.count_erase, hne]; omega
          · simp [List.countP_append, h2]
          · simpa [List.count_append] using h3 q
          · simpa using h4
        · cases hst
      | ask p =>
        simp only [Boot.step] at hst
        split at hst
        · cases hst
        · rename_i hc
          cases hst
          simp only [not_or] at hc
          refine ⟨fun d => ?_, ?_, fun q => ?_, ?_, h5⟩
          · simpa [List.count_append] using h1 d
          · simp [List.countP_append, h2]
          · have := h3 q
            have a := List.count_eq_zero.2 hc.1
            have b := List.count_eq_zero.2 hc.2.1
            have c := List.count_eq_zero.2 hc.2.2
            simp [List.count_append, List.count_singleton]
            split <;> simp_all <;> omega
          · simpa using h4
      | accept p =>
        simp only [Boot.step] at hst
        split at hst
        · rename_i hc
          cases hst
          refine ⟨fun d => ?_, ?_, fun q => ?_, ?_, fun _ => h5 (by rw [hc.2]; exact fun h => by cases h)⟩
          · simpa [List.count_append] using h1 d
          · simp [List.countP_append, h2]
          · have := h3 q
            have hp := List.count_pos_iff.2 hc.1
            rcases eq_or_ne p q with rfl | hne
            · simp [List.count_append, List.count_singleton, List.count_erase, List.count_cons]; omega
            · simp [List.count_append, List.count_singleton, List.count_erase, List.count_cons, hne]; omega
          · simpa using h4
        · cases hst
      | reply p =>
        simp only [Boot.step] at hst
        split at hst
        · rename_i hc
          cases hst
          refine ⟨fun d => ?_, ?_, fun q => ?_, ?_, fun _ => h5 (by rw [hc.1]; exact fun h => by cases h)⟩
          · simpa [List.count_append] using h1 d
          · simp [List.countP_append, h2]
          · have := h3 q
            have hp := List.count_pos_iff.2 hc.2
            rcases eq_or_ne p q with rfl | hne
            · simp [List.count_append, List.count_singleton, List.count_erase, List.count_cons]; omega
            · simp [List.count_append, List.count_singleton, List.count_erase, List.count_cons, hne]; omega
          · simpa using h4
        · cases hst
      | giveUp p =>
        simp only [Boot.step] at hst
        split at hst
        · rename_i hc
          cases hst
          refine ⟨fun d => ?_, ?_, fun q => ?_, ?_, h5⟩
          · simpa [List.count_append] using h1 d
          · simp [List.countP_append, h2]
          · have := h3 q
            have hp := List.count_pos_iff.2 hc
            rcases eq_or_ne p q with rfl | hne
            · simp [List.count_append, List.count_singleton, List.count_erase]; omega
            · simp [List.count_append, List.count_singleton, List.count_erase, hne]; omega
          · simpa using h4
        · cases hst
  obtain ⟨h1, h2, h3, h4, _⟩ := key
  refine ⟨h1, h2, fun q => ?_, h4⟩
  obtain ⟨a, b, c, d⟩ := h3 q
  exact ⟨a, b, c, by omega⟩

/-! ## C61 -/

/-- C61 refuted: if a caller gives up after its query was accepted, the manager is stuck for ever: in every
continuation it stays in that reply, handles nothing and answers nothing. -/
theorem C61_abandoned_query_refuted (s0 : Boot) (q : Nat) (hq : s0.loop = .replying q)
    (ha : q ∉ s0.awaiting) (ha' : q ∉ s0.asking) (hn : q ∉ s0.answered) (hp : s0.phase = .spawned)
    (ls : List BootLabel) (hls : BootLabel.ask q ∉ ls) (s : Boot) (hr : s0.run ls = some s) :
    s.loop = .replying q ∧ s.handled = s0.handled ∧ s.answered = s0.answered := by
  induction ls generalizing s0 with
  | nil => simp only [Boot.run, Option.some.injEq] at hr; subst hr; exact ⟨hq, rfl, rfl⟩
  | cons l ls ih =>
    simp only [Boot.run] at hr
    have hls' : BootLabel.ask q ∉ ls := fun h => hls (by simp [h])
    cases hst : s0.step l with
    | none => rw [hst] at hr; cases hr
    | some s1 =>
      rw [hst] at hr
      cases l with
      | announce => simp [Boot.step, hp] at hst
      | spawn => simp [Boot.step, hp] at hst
      | notify d =>
        simp only [Boot.step, Option.some.injEq] at hst; subst hst
        have hi := fun a b c d e => ih _ a b c d e hls' hr
        exact hi hq ha ha' hn hp
      | deliver d => simp [Boot.step, hq] at hst
      | ask q' =>
        simp only [Boot.step] at hst
        split at hst
        · cases hst
        · simp only [Option.some.injEq] at hst; subst hst
          have hne : q' ≠ q := fun e => hls (by simp [e])
          have hi := fun a b c d e => ih _ a b c d e hls' hr
          refine hi hq ha ?_ hn hp
          simp only [List.mem_append, List.mem_singleton, not_or]
          exact ⟨ha', fun e => hne e.symm⟩
      | accept q' => simp [Boot.step, hq] at hst
      | reply q' =>
        simp only [Boot.step] at hst
        split at hst
        · rename_i hc
          rw [hq] at hc
          simp at hc
          rw [← hc.1] at hc
          exact absurd hc.2 ha
        · cases hst
      | giveUp q' =>
        simp only [Boot.step] at hst
        split at hst
        · simp only [Option.some.injEq] at hst; subst hst
          have hi := fun a b c d e => ih _ a b c d e hls' hr
          exact hi hq (fun h => ha (List.mem_of_mem_erase h)) ha' hn hp
        · cases hst

/-- C61 refuted, reachability: one query whose caller's context ends at the wrong moment is enough. -/
theorem C61_abandoned_query_reachable :
    ∃ s, (Boot.init []).run [.spawn, .ask 1, .accept 1, .giveUp 1, .notify exC1, .ask 2] = some s ∧
      s.loop = .replying 1 ∧ 1 ∉ s.awaiting ∧ 1 ∉ s.asking ∧ 1 ∉ s.answered ∧ s.phase = .spawned := by
  refine ⟨_, rfl, ?_⟩
  decide +kernel

/-- C61, what holds: if no caller gives up between acceptance and reply, every accepted query can be answered in the
next step of the manager (C36_serves_partial), and the answer goes to the caller that asked. -/
theorem C61_reply_partial (s s' : Boot) (q : Nat) (h : s.step (.reply q) = some s') :
    q ∈ s.awaiting ∧ s'.answered = q :: s.answered ∧ s'.loop = .serving := by
  simp only [Boot.step] at h
  split at h
  · rename_i hc; simp only [Option.some.injEq] at h; subst h; exact ⟨hc.2, rfl, rfl⟩
  · cases h

end KP2P

import Verif.Spec.Life
import Verif.Props.NodeClose
import Mathlib.Data.List.Induction
import Mathlib.Tactic.IntervalCases
/-!
# C122, C123, C124: the program comes up, serves and ends
-/

namespace KP2P
open KP2P.Life KP2P.Spec.Life

namespace Life

/-- The steps, one case each. -/
inductive Tr (s : State) : Label → State → Prop
  | store (ok) : s.phase = .probeStore →
      Tr s (.probe ok) { s with ctxs := s.ctxs + 1, phase := if ok then .probeChain else .probeStore }
  | chain (ok) : s.phase = .probeChain →
      Tr s (.probe ok) { s with ctxs := s.ctxs + 1, phase := if ok then .build else .probeChain }
  | build (ok) : s.phase = .build → Tr s (.build ok) { s with phase := if ok then .head else .panicked }
  | head (ok) : s.phase = .head → Tr s (.head ok) { s with phase := if ok then .handler else .panicked }
  | handler : s.phase = .handler → Tr s .handler { s with phase := .notify }
  | notify : s.phase = .notify → Tr s .notify { s with phase := .forks }
  | forks (ok) : s.phase = .forks → Tr s (.forks ok) { s with phase := if ok then .errors else .forks }
  | errors : s.phase = .errors → Tr s .errors { s with phase := .toggle, gate := true }
  | toggle : s.phase = .toggle → Tr s .toggle { s with phase := .manager }
  | manager : s.phase = .manager → Tr s .manager { s with phase := .applicator, starter := .spawned }
  | applicator : s.phase = .applicator → Tr s .applicator { s with phase := .install }
  | install : s.phase = .install → Tr s .install { s with phase := .waiting }
  | list : s.phase.alive = true → s.starter = .spawned →
      Tr s .list { s with starter := .listed, net := { s.net with mgr := .starting (present s.net) } }
  | net (l n) : s.phase.alive = true → allowed s l = true → Closing.step s.net l = some n → Tr s (.net l) { s with net := n }
  | kill : s.phase.unarmed = true → Tr s .signal { s with phase := .killed }
  | signal : s.phase = .waiting ∨ s.phase = .closing → Tr s .signal { s with signal := true }
  | take : s.phase = .waiting → s.signal = true → Tr s .take { s with phase := .closing, signal := false }
  | exit : s.phase = .closing → s.net.close = .returned → Tr s .exit { s with phase := .finished }

theorem step_tr {s s' : State} {l : Label} (h : step s l = some s') : Tr s l s' := by
  cases l <;> simp only [step] at h
  case probe ok => split at h <;> cases h; exacts [.store ok ‹_›, .chain ok ‹_›]
  case build ok => split at h <;> cases h; exact .build ok ‹_›
  case head ok => split at h <;> cases h; exact .head ok ‹_›
  case handler => split at h <;> cases h; exact .handler ‹_›
  case notify => split at h <;> cases h; exact .notify ‹_›
  case forks ok => split at h <;> cases h; exact .forks ok ‹_›
  case errors => split at h <;> cases h; exact .errors ‹_›
  case toggle => split at h <;> cases h; exact .toggle ‹_›
  case manager => split at h <;> cases h; exact .manager ‹_›
  case applicator => split at h <;> cases h; exact .applicator ‹_›
  case install => split at h <;> cases h; exact .install ‹_›
  case list => split at h <;> cases h; exact .list (‹_ ∧ _›).1 (‹_ ∧ _›).2
  case net l =>
    split at h
    · rename_i hc
      cases hn : Closing.step s.net l with
      | none => rw [hn] at h; cases h
      | some n => rw [hn] at h; cases h; exact .net l n hc.1 hc.2 hn
    · cases h
  case signal =>
    split at h
    · cases h; exact .kill ‹_›
    · rename_i hu
      split at h
      · rename_i ha
        cases h
        refine .signal ?_
        cases hp : s.phase <;> simp_all [Phase.unarmed, Phase.alive]
      · cases h
  case take => split at h <;> cases h; exact .take (‹_ ∧ _›).1 (‹_ ∧ _›).2
  case exit => split at h <;> cases h; exact .exit (‹_ ∧ _›).1 (‹_ ∧ _›).2

theorem run_append (s : State) (a b : List Label) :
    run s (a ++ b) = match run s a with | some t => run t b | none => none := by
  induction a generalizing s with
  | nil => rfl
  | cons l a ih =>
    simp only [List.cons_append, run]
    cases step s l with
    | none => rfl
    | some t => exact ih t

/-- An invariant that may speak of the labels so far. -/
theorem run_inv {P : List Label → State → Prop} (h0 : P [] init)
    (hs : ∀ ls s l s', run init ls = some s → P ls s → Tr s l s' → P (ls ++ [l]) s') :
    ∀ {ls : List Label} {s : State}, run init ls = some s → P ls s := by
  intro ls
  induction ls using List.reverseRecOn with
  | nil => intro s h; cases h; exact h0
  | append_singleton ls l ih =>
    intro s h
    rw [run_append] at h
    cases ht : run init ls with
    | none => rw [ht] at h; cases h
    | some t =>
      rw [ht] at h
      simp only [run] at h
      cases hu : step t l with
      | none => rw [hu] at h; cases h
      | some u => rw [hu] at h; cases h; exact hs ls t l _ ht (ih ht) (step_tr hu)

/-- How far the main goroutine has come. -/
def Phase.rank : Phase → Nat
  | .probeStore => 0 | .probeChain => 1 | .build => 2 | .head => 3 | .handler => 4 | .notify => 5 | .forks => 6 | .errors => 7
  | .toggle => 8 | .manager => 9 | .applicator => 10 | .install => 11 | .waiting => 12 | .closing => 13
  | .finished => 14 | .panicked => 0 | .killed => 0

/-- What has been answered, by the phase. -/
structure Told (ls : List Label) (s : State) : Prop where
  store : 1 ≤ s.phase.rank → 1 ≤ ls.count (.probe true)
  chain : 2 ≤ s.phase.rank → 2 ≤ ls.count (.probe true)
  build : 3 ≤ s.phase.rank → .build true ∈ ls
  head : 4 ≤ s.phase.rank → .head true ∈ ls
  forks : 7 ≤ s.phase.rank → .forks true ∈ ls
  install : 12 ≤ s.phase.rank → .install ∈ ls
  signal : s.signal = true ∨ 13 ≤ s.phase.rank → .signal ∈ ls
  gate : s.gate = true → Answered ls
  links : s.net.links ≠ [] → Answered ls

theorem net_links {s n : Closing.State} {l : Closing.Label} (h : Closing.step s l = some n) (hn : n.links ≠ []) :
    s.links ≠ [] ∨ l = .connect := by
  by_contra hc
  simp only [not_or, not_not] at hc
  obtain ⟨h1, h2⟩ := hc
  apply hn
  cases Closing.step_tr h <;> simp_all

theorem told {ls : List Label} {s : State} (h : run init ls = some s) : Told ls s := by
  refine run_inv (P := Told) ?_ ?_ h
  · constructor <;> simp [init, Phase.rank, Closing.init]
  · intro ls s l s' _ hi ht
    obtain ⟨h1, h2, h3, h4, h5, h6, h7, h8, h9⟩ := hi
    cases ht with
    | store ok hp =>
      cases ok <;> constructor <;> simp_all [Phase.rank, Answered, List.count_append]
      · exact fun h => List.count_pos_iff.1 (by have := (h8 h).1; omega)
      · exact fun h => List.count_pos_iff.1 (by have := (h9 h).1; omega)
    | chain ok hp => cases ok <;> constructor <;> simp_all [Phase.rank, Answered, List.count_append] <;> omega
    | build ok hp => cases ok <;> constructor <;> simp_all [Phase.rank, Answered, List.count_append]
    | head ok hp => cases ok <;> constructor <;> simp_all [Phase.rank, Answered, List.count_append]
    | forks ok hp => cases ok <;> constructor <;> simp_all [Phase.rank, Answered, List.count_append]
    | net l n ha hb hn =>
      have hc : (ls ++ [Label.net l]).count (.probe true) = ls.count (.probe true) := by simp [List.count_append]
      have hA : Answered ls → Answered (ls ++ [Label.net l]) := fun h => ⟨by rw [hc]; exact h.1, by simp [h.2.1], by simp [h.2.2]⟩
      refine ⟨by rw [hc]; exact h1, by rw [hc]; exact h2, fun h => List.mem_append_left _ (h3 h),
        fun h => List.mem_append_left _ (h4 h), fun h => List.mem_append_left _ (h5 h), fun h => List.mem_append_left _ (h6 h),
        fun h => List.mem_append_left _ (h7 h), fun h => hA (h8 h), fun h => ?_⟩
      rcases net_links hn h with h | rfl
      · exact hA (h9 h)
      · exact hA (h8 hb)
    | _ => constructor <;> simp_all [Phase.rank, Answered, List.count_append]

end Life

/-! ## C122 -/

/-- **C122.** Nobody is connected to before the block store and the chain have answered and the chain has told its head and its
fork heads. -/
theorem C122_answered_first {ls : List Life.Label} {s : Life.State} (h : run init ls = some s) (hl : s.net.links ≠ []) :
    Answered ls := (Life.told h).links hl

/-- **C122.** A node that is up has asked, and been answered, all four questions, and its host was made. -/
theorem C122_up_answered {ls : List Life.Label} {s : Life.State} (h : run init ls = some s)
    (hu : s.phase = .waiting ∨ s.phase = .closing ∨ s.phase = .finished) : Answered ls ∧ .build true ∈ ls := by
  have ht := Life.told h
  have : 12 ≤ s.phase.rank := by rcases hu with h | h | h <;> rw [h] <;> decide
  exact ⟨⟨ht.chain (by omega), ht.head (by omega), ht.forks (by omega)⟩, ht.build (by omega)⟩

/-- **C122.** The program panics exactly if making the host fails or the chain does not tell its head when asked for it. -/
theorem C122_panics_exactly {ls : List Life.Label} {s : Life.State} (h : run init ls = some s) :
    s.phase = .panicked ↔ .build false ∈ ls ∨ .head false ∈ ls := by
  refine Life.run_inv (P := fun ls s => s.phase = .panicked ↔ .build false ∈ ls ∨ .head false ∈ ls) ?_ ?_ h
  · simp [init]
  · intro ls s l s' _ hi ht
    cases ht with
    | store ok hp => cases ok <;> simp_all
    | chain ok hp => cases ok <;> simp_all
    | build ok hp => cases ok <;> simp_all
    | head ok hp => cases ok <;> simp_all
    | forks ok hp => cases ok <;> simp_all
    | kill hp =>
      have : s.phase ≠ .panicked := fun h => by rw [h] at hp; cases hp
      simp_all
    | _ => simp_all

/-- **C122.** Failed probes and failed questions for the fork heads leave no trace but the contexts of the probes: without them
the program is where it is. -/
theorem C122_retries {ls : List Life.Label} {s : Life.State} (h : run init ls = some s) :
    run init (ls.filter fun l => !Retried l) = some { s with ctxs := ls.count (.probe true) } ∧
    s.ctxs = ls.count (.probe true) + ls.count (.probe false) := by
  refine Life.run_inv (P := fun ls s => run init (ls.filter fun l => !Retried l) =
    some { s with ctxs := ls.count (.probe true) } ∧ s.ctxs = ls.count (.probe true) + ls.count (.probe false)) ?_ ?_ h
  · simp [init, run]
  · intro ls s l s' _ hi ht
    obtain ⟨h1, h2⟩ := hi
    rw [List.filter_append, Life.run_append, h1]
    cases ht with
    | store ok hp =>
      cases ok
      · simp [Retried, run, hp, List.count_append, h2]; omega
      · simp [Retried, run, step, hp, List.count_append, h2]; omega
    | chain ok hp =>
      cases ok
      · simp [Retried, run, hp, List.count_append, h2]; omega
      · simp [Retried, run, step, hp, List.count_append, h2]; omega
    | build ok hp => simp [Retried, run, step, hp, List.count_append, h2]
    | head ok hp => simp [Retried, run, step, hp, List.count_append, h2]
    | forks ok hp =>
      cases ok
      · simp [Retried, run, hp, List.count_append, h2]
      · simp [Retried, run, step, hp, List.count_append, h2]
    | signal hp => rcases hp with hp | hp <;> simp [Retried, run, step, hp, List.count_append, h2, Phase.unarmed, Phase.alive]
    | net l n ha hb hn =>
      have hb' : allowed { s with ctxs := ls.count (.probe true) } l = true := by cases l <;> exact hb
      simp [Retried, run, step, ha, hb', hn, List.count_append, h2]
    | _ => simp_all [Retried, run, step, List.count_append]

/-- **C122 (refuted: the probes are not bounded).** However many contexts, a node can come up that keeps more. -/
theorem C122_contexts_refuted (n : Nat) : ∃ ls s, run init ls = some s ∧ s.phase = .waiting ∧ n < s.ctxs := by
  have key : ∀ n c, run { init with ctxs := c } (List.replicate n (.probe false)) = some { init with ctxs := c + n } := by
    intro n
    induction n with
    | zero => intro c; rfl
    | succ n ih =>
      intro c
      have := ih (c + 1)
      simp only [List.replicate_succ, run, step, init] at this ⊢
      simp only [Bool.false_eq_true, if_false]
      rw [this, Nat.add_assoc, Nat.add_comm 1 n]
  refine ⟨List.replicate n (.probe false) ++ [.probe true, .probe true, .build true, .head true, .handler, .notify, .forks true,
    .errors, .toggle, .manager, .applicator, .install],
    { init with phase := .waiting, ctxs := n + 2, gate := true, starter := .spawned }, ?_, rfl, by simp⟩
  rw [Life.run_append]
  have := key n 0
  simp only [Nat.zero_add] at this
  rw [show run init (List.replicate n (.probe false)) = some { init with ctxs := n } from this]
  simp [run, step, init]

namespace Life

/-- What the main goroutine waits for, and where it is then. -/
def Phase.good : Phase → Label
  | .probeStore | .probeChain => .probe true
  | .build => .build true
  | .head => .head true
  | .handler => .handler
  | .notify => .notify
  | .forks => .forks true
  | .errors => .errors
  | .toggle => .toggle
  | .manager => .manager
  | .applicator => .applicator
  | _ => .install

def Phase.next : Phase → Phase
  | .probeStore => .probeChain
  | .probeChain => .build
  | .build => .head
  | .head => .handler
  | .handler => .notify
  | .notify => .forks
  | .forks => .errors
  | .errors => .toggle
  | .toggle => .manager
  | .manager => .applicator
  | .applicator => .install
  | _ => .waiting

theorem exec_cases {σ : Nat → State} {ev : Nat → Option Label} (hx : Exec σ ev) (n : Nat) :
    (ev n = none ∧ σ (n + 1) = σ n) ∨ ∃ l, ev n = some l ∧ Tr (σ n) l (σ (n + 1)) := by
  have h := hx.2 n
  cases he : ev n with
  | none => rw [he] at h; exact .inl ⟨rfl, h⟩
  | some l => rw [he] at h; exact .inr ⟨l, rfl, step_tr h⟩

theorem exec_run {σ : Nat → State} {ev : Nat → Option Label} (hx : Exec σ ev) (n : Nat) : ∃ ls, run init ls = some (σ n) := by
  induction n with
  | zero => exact ⟨[], by rw [hx.1]; rfl⟩
  | succ n ih =>
    obtain ⟨ls, h⟩ := ih
    have hs := hx.2 n
    cases he : ev n with
    | none => rw [he] at hs; rw [hs]; exact ⟨ls, h⟩
    | some l =>
      rw [he] at hs
      refine ⟨ls ++ [l], ?_⟩
      rw [run_append, h]; simp [run, hs]

theorem phase_tr {s s' : State} {l : Label} (ht : Tr s l s') (hu : s.phase.unarmed = true) (h1 : l ≠ .signal)
    (h2 : l ≠ .build false) (h3 : l ≠ .head false) :
    s'.phase = s.phase ∨ (l = s.phase.good ∧ s'.phase = s.phase.next) := by
  cases ht with
  | store ok hp => cases ok <;> simp [hp, Phase.good, Phase.next]
  | chain ok hp => cases ok <;> simp [hp, Phase.good, Phase.next]
  | build ok hp => cases ok <;> simp_all [Phase.good, Phase.next]
  | head ok hp => cases ok <;> simp_all [Phase.good, Phase.next]
  | forks ok hp => cases ok <;> simp [hp, Phase.good, Phase.next]
  | kill => exact absurd rfl h1
  | signal => exact absurd rfl h1
  | take hp => rw [hp] at hu; cases hu
  | exit hp => rw [hp] at hu; cases hu
  | list => exact .inl rfl
  | net => exact .inl rfl
  | _ hp => exact .inr (by simp [hp, Phase.good, Phase.next])

theorem advance {σ : Nat → State} {ev : Nat → Option Label} (hx : Exec σ ev) {n : Nat}
    (hs : ∀ m, ev m ≠ some .signal ∧ ev m ≠ some (.build false) ∧ ev m ≠ some (.head false))
    (hu : (σ n).phase.unarmed = true) (hw : Weak σ ev (σ n).phase.good) :
    ∃ m, n ≤ m ∧ (σ m).phase = (σ n).phase.next := by
  by_contra hno
  have hno : ∀ m, n ≤ m → (σ m).phase ≠ (σ n).phase.next := fun m hm h => hno ⟨m, hm, h⟩
  have hstay : ∀ m, n ≤ m → (σ m).phase = (σ n).phase := by
    intro m hm
    induction m, hm using Nat.le_induction with
    | base => rfl
    | succ m hm ih =>
      rcases exec_cases hx m with ⟨_, h⟩ | ⟨l, he, ht⟩
      · rw [h]; exact ih
      · have h3 := hs m
        rw [he] at h3
        rcases phase_tr ht (by rw [ih]; exact hu) (fun h => h3.1 (by rw [h])) (fun h => h3.2.1 (by rw [h]))
          (fun h => h3.2.2 (by rw [h])) with h | ⟨_, h⟩
        · rw [h, ih]
        · rw [ih] at h; exact absurd h (hno (m + 1) (by omega))
  obtain ⟨m, hm, he⟩ := hw n (fun m hm => by
    have h := hstay m hm
    cases hp : (σ n).phase <;> rw [hp] at h hu <;> first | (cases hu; done) | simp [Phase.good, step, h])
  rcases exec_cases hx m with ⟨h, _⟩ | ⟨l, he', ht⟩
  · rw [h] at he; cases he
  · rw [he] at he'; cases he'
    have h := hstay m hm
    have h' := hstay (m + 1) (by omega)
    cases hp : (σ n).phase <;> rw [hp] at h h' hu ht <;> first | (cases hu; done) | skip
    all_goals
      generalize σ (m + 1) = t at ht h'
      cases ht <;> simp_all

end Life

/-- **C122 (partial).** If making the host and the one question for the head do not fail and no signal comes, and every question
that is asked for ever is answered well once, then the node comes up, however often the services have failed before. Missing:
`C122_head_refuted`. -/
theorem C122_comes_up_partial {σ : Nat → Life.State} {ev : Nat → Option Life.Label} (hx : Exec σ ev) (ha : Answers σ ev)
    (hf : Fair σ ev) (hs : ∀ m, ev m ≠ some .signal ∧ ev m ≠ some (.build false) ∧ ev m ≠ some (.head false)) :
    ∃ n, (σ n).phase = .waiting := by
  have hm := fun l h => hf.main l h
  obtain ⟨n1, _, h1⟩ := Life.advance hx (n := 0) hs (by rw [hx.1]; rfl) (by rw [hx.1]; exact ha.probe)
  rw [hx.1] at h1
  obtain ⟨n2, _, h2⟩ := Life.advance hx (n := n1) hs (by rw [h1]; rfl) (by rw [h1]; exact ha.probe)
  rw [h1] at h2
  obtain ⟨n3, _, h3⟩ := Life.advance hx (n := n2) hs (by rw [h2]; rfl) (by rw [h2]; exact ha.build)
  rw [h2] at h3
  obtain ⟨n4, _, h4⟩ := Life.advance hx (n := n3) hs (by rw [h3]; rfl) (by rw [h3]; exact ha.head)
  rw [h3] at h4
  obtain ⟨n5, _, h5⟩ := Life.advance hx (n := n4) hs (by rw [h4]; rfl) (by rw [h4]; exact hm _ (by decide))
  rw [h4] at h5
  obtain ⟨n6, _, h6⟩ := Life.advance hx (n := n5) hs (by rw [h5]; rfl) (by rw [h5]; exact hm _ (by decide))
  rw [h5] at h6
  obtain ⟨n7, _, h7⟩ := Life.advance hx (n := n6) hs (by rw [h6]; rfl) (by rw [h6]; exact ha.forks)
  rw [h6] at h7
  obtain ⟨n8, _, h8⟩ := Life.advance hx (n := n7) hs (by rw [h7]; rfl) (by rw [h7]; exact hm _ (by decide))
  rw [h7] at h8
  obtain ⟨n9, _, h9⟩ := Life.advance hx (n := n8) hs (by rw [h8]; rfl) (by rw [h8]; exact hm _ (by decide))
  rw [h8] at h9
  obtain ⟨n10, _, h10⟩ := Life.advance hx (n := n9) hs (by rw [h9]; rfl) (by rw [h9]; exact hm _ (by decide))
  rw [h9] at h10
  obtain ⟨n11, _, h11⟩ := Life.advance hx (n := n10) hs (by rw [h10]; rfl) (by rw [h10]; exact hm _ (by decide))
  rw [h10] at h11
  obtain ⟨n12, _, h12⟩ := Life.advance hx (n := n11) hs (by rw [h11]; rfl) (by rw [h11]; exact hm _ (by decide))
  rw [h11] at h12
  exact ⟨n12, h12⟩

/-- The claim: the services may fail as they like, as long as they answer in the end, the node comes up. -/
def ComesUp : Prop := ∀ (σ : Nat → Life.State) (ev : Nat → Option Life.Label), Exec σ ev → Answers σ ev → Fair σ ev →
  (∀ m, ev m ≠ some .signal ∧ ev m ≠ some (.build false)) → ∃ n, (σ n).phase = .waiting

namespace Life

/-- The states of the run of `ls`, and then for ever the last. -/
def onSt (s : State) : List Label → Nat → State
  | [], _ => s
  | _, 0 => s
  | l :: ls, n + 1 => match step s l with
    | some s' => onSt s' ls n
    | none => s

theorem onSt_zero (s : State) (ls : List Label) : onSt s ls 0 = s := by cases ls <;> rfl

theorem onSt_step : ∀ (ls : List Label) (s t : State), run s ls = some t → ∀ n, match ls[n]? with
    | some l => step (onSt s ls n) l = some (onSt s ls (n + 1))
    | none => onSt s ls (n + 1) = onSt s ls n
  | [], s, _, _, n => by simp [onSt]
  | l :: ls, s, t, h, n => by
    simp only [run] at h
    split at h
    · rename_i u hu
      cases n with
      | zero => simp [onSt, hu, onSt_zero]
      | succ n => simpa [onSt, hu] using onSt_step ls u t h n
    · cases h

theorem onSt_end : ∀ (ls : List Label) (s t : State), run s ls = some t → ∀ n, ls.length ≤ n → onSt s ls n = t
  | [], s, t, h, n, _ => by cases h; cases n <;> rfl
  | l :: ls, s, t, h, n, hn => by
    simp only [run] at h
    split at h
    · rename_i u hu
      cases n with
      | zero => simp at hn
      | succ n => simp only [onSt, hu]; exact onSt_end ls u t h n (by simpa using hn)
    · cases h

theorem onSt_exec {ls : List Label} {t : State} (h : run init ls = some t) : Exec (onSt init ls) (fun n => ls[n]?) :=
  ⟨onSt_zero _ _, onSt_step ls _ _ h⟩

theorem onSt_weak {ls : List Label} {t : State} (h : run init ls = some t) {l : Label} (hl : step t l = none) :
    Weak (onSt init ls) (fun n => ls[n]?) l := by
  intro n ha
  have := ha (n + ls.length) (by omega)
  rw [onSt_end ls _ _ h _ (by omega), hl] at this; cases this

theorem onSt_strong {ls : List Label} {t : State} (h : run init ls = some t) {l : Label} (hl : step t l = none) :
    Strong (onSt init ls) (fun n => ls[n]?) l := by
  intro n ha
  obtain ⟨k, hk, this⟩ := ha (n + ls.length) (by omega)
  rw [onSt_end ls _ _ h _ (by omega), hl] at this; cases this

/-- Nothing that has to happen can happen. -/
def idle (s : State) : Bool :=
  [Label.handler, .notify, .errors, .toggle, .manager, .applicator, .install, .take, .exit,
    .net .close, .net .hostClose, .net .done, .list, .net .spawn, .net .answer].all (fun l => (step s l).isNone) &&
  (!s.phase.alive || s.net.mgr != .serving || s.net.links.all fun l => l == .gone || l == .up)

theorem onSt_fair {ls : List Label} {t : State} (h : run init ls = some t) (hi : idle t = true) :
    Fair (onSt init ls) (fun n => ls[n]?) := by
  simp only [idle, Bool.and_eq_true, List.all_eq_true, Option.isNone_iff_eq_none, Bool.or_eq_true] at hi
  obtain ⟨h1, h2⟩ := hi
  refine ⟨fun l hl => onSt_weak h (h1 l ?_), ⟨onSt_weak h (h1 _ (by decide)), onSt_weak h (h1 _ (by decide))⟩,
    onSt_weak h (h1 _ (by decide)), fun i => onSt_strong h ?_, fun i => onSt_strong h ?_⟩
  · simp only [List.mem_cons, List.not_mem_nil, or_false] at hl ⊢; tauto
  · simp only [step]
    split
    · rename_i hc
      rcases h2 with (h2 | h2) | h2
      · rw [hc.1] at h2; cases h2
      · simp only [Closing.step]; split
        · rename_i hm _; rw [hm] at h2; simp at h2
        · rfl
      · simp only [Closing.step]; split
        · rename_i hg; have := h2 _ (List.mem_of_getElem? hg); simp at this
        · rfl
    · rfl
  · simp only [step]
    split
    · rename_i hc
      rcases h2 with (h2 | h2) | h2
      · rw [hc.1] at h2; cases h2
      · simp only [Closing.step]; split
        · rename_i hm _; rw [hm] at h2; simp at h2
        · rfl
      · simp only [Closing.step]; split
        · rename_i hg; have := h2 _ (List.mem_of_getElem? hg); simp at this
        · rfl
    · rfl

end Life

/-- **C122 (refuted).** Between the probe and the start the chain fails to answer once, when it is asked for the head: the
program panics. -/
theorem C122_head_refuted : ¬ ComesUp := by
  intro hc
  have hr : run init [.probe true, .probe true, .build true, .head false] =
    some { init with phase := .panicked, ctxs := 2 } := by decide
  obtain ⟨n, hn⟩ := hc _ _ (Life.onSt_exec hr)
    ⟨Life.onSt_weak hr (by decide), Life.onSt_weak hr (by decide), Life.onSt_weak hr (by decide), Life.onSt_weak hr (by decide)⟩
    (Life.onSt_fair hr (by decide))
    (fun m => by
      rcases Nat.lt_or_ge m 4 with h | h
      · interval_cases m <;> decide
      · have : ([Label.probe true, .probe true, .build true, .head false] : List Life.Label)[m]? = none := by simpa using h
        simp [this])
  rcases Nat.lt_or_ge n 4 with h | h
  · interval_cases n <;> simp [Life.onSt, step, init] at hn
  · rw [Life.onSt_end _ _ _ hr n (by simpa using h)] at hn; cases hn

/-! ## C123, C124 -/

namespace Life

/-- How the parts of the program fit together. -/
structure Joint (s : State) : Prop where
  starter : s.starter ≠ .listed → s.net.mgr = .starting 0
  closing : s.net.close ≠ .notYet → s.phase = .closing ∨ s.phase = .finished
  finished : s.phase = .finished → s.net.close = .returned
  started : 10 ≤ s.phase.rank → s.starter ≠ .none
  fresh : s.phase.rank ≤ 9 → s.phase.alive = true → s.starter = .none
  ctx : s.net.ctxDone = false
  inv : Closing.Inv s.net

theorem mgr_step {s n : Closing.State} {l : Closing.Label} (h : Closing.step s l = some n) (hm : s.mgr = .starting 0)
    (hl : l ≠ .spawn) : n.mgr = .starting 0 := by
  cases Closing.step_tr h with
  | spawn => exact absurd rfl hl
  | ask h' => rw [hm] at h'; cases h'
  | answer h' => rw [hm] at h'; cases h'
  | abandon h' => rw [hm] at h'; cases h'
  | skip _ h' => rw [hm] at h'; cases h'
  | finish h' => rw [hm] at h'; cases h'
  | _ => exact hm

theorem close_step {s n : Closing.State} {l : Closing.Label} (h : Closing.step s l = some n)
    (hl : l ≠ .close ∧ l ≠ .hostClose ∧ l ≠ .done) : n.close = s.close := by
  cases Closing.step_tr h <;> simp_all

theorem ctx_step {s n : Closing.State} {l : Closing.Label} (h : Closing.step s l = some n)
    (hl : l ≠ .cancel) : n.ctxDone = s.ctxDone := by
  cases Closing.step_tr h <;> simp_all

theorem joint_tr {s s' : State} {l : Label} (hj : Joint s) (ht : Tr s l s') : Joint s' := by
  obtain ⟨h1, h2, h3, h4, h7, h5, h6⟩ := hj
  cases ht with
  | store ok hp => cases ok <;> constructor <;> simp_all [Phase.rank, Phase.alive]
  | chain ok hp => cases ok <;> constructor <;> simp_all [Phase.rank, Phase.alive]
  | build ok hp => cases ok <;> constructor <;> simp_all [Phase.rank, Phase.alive]
  | head ok hp => cases ok <;> constructor <;> simp_all [Phase.rank, Phase.alive]
  | forks ok hp => cases ok <;> constructor <;> simp_all [Phase.rank, Phase.alive]
  | list ha hs =>
    refine ⟨fun h => absurd rfl h, h2, h3, fun _ h => ?_, fun h h' => ?_, h5, ⟨h6.waiting, h6.returned⟩⟩
    · cases h
    · rw [h7 h h'] at hs; cases hs
  | net l n ha hb hn =>
    refine ⟨fun h => ?_, fun h => ?_, fun h => ?_, h4, h7, ?_, Closing.inv_step h6 hn⟩
    · refine mgr_step hn (h1 h) (fun hl => ?_)
      subst hl; simp only [allowed, beq_iff_eq] at hb; exact h hb
    · by_cases hl : l = .close ∨ l = .hostClose ∨ l = .done
      · rcases hl with rfl | rfl | rfl <;> exact .inl (by simpa [allowed] using hb)
      · rw [close_step hn (by tauto)] at h; exact h2 h
    · change s.phase = _ at h; rw [h] at ha; cases ha
    · rw [← h5]; exact ctx_step hn (fun hl => by subst hl; cases hb)
  | kill hp =>
    refine ⟨h1, fun h => ?_, fun h => (by cases h), fun h => absurd h (by simp [Phase.rank]),
      fun _ h => (by cases h), h5, h6⟩
    rcases h2 h with h | h <;> rw [h] at hp <;> cases hp
  | _ => constructor <;> simp_all [Phase.rank, Phase.alive]

theorem joint {ls : List Label} {s : State} (h : run init ls = some s) : Joint s := by
  refine run_inv (P := fun _ s => Joint s) ?_ (fun _ _ _ _ _ => joint_tr) h
  constructor <;> simp [init, Closing.init, Phase.rank]
  exact Closing.inv_init 0

end Life

/-- **C123.** The program ends by itself only after a signal, and then in order: `Close` has returned, and every connection there
was is closed and has been reported so. -/
theorem C123_orderly {ls : List Life.Label} {s : Life.State} (h : run init ls = some s) (hf : s.phase = .finished) :
    .signal ∈ ls ∧ s.net.close = .returned ∧ ∀ l ∈ s.net.links, l = .gone := by
  have hj := Life.joint h
  exact ⟨(Life.told h).signal (.inr (by rw [hf]; decide)), hj.finished hf, hj.inv.returned (hj.finished hf)⟩

/-- **C123.** The node is closed only after a signal. -/
theorem C123_only_then {ls : List Life.Label} {s : Life.State} (h : run init ls = some s) (hc : s.net.close ≠ .notYet) :
    .signal ∈ ls := by
  refine (Life.told h).signal (.inr ?_)
  revert hc
  refine Life.run_inv (P := fun _ s => s.net.close ≠ .notYet → 13 ≤ s.phase.rank) ?_ ?_ h
  · intro h; exact absurd rfl h
  · intro ls s l s' _ hi ht hc
    cases ht with
    | net l n ha hb hn =>
      by_cases h0 : s.net.close = .notYet
      · have : l = .close := by
          cases Closing.step_tr hn <;> simp_all
        subst this
        have : s.phase = .closing := by simpa [allowed] using hb
        rw [this]; decide
      · exact hi h0
    | kill hp =>
      have := hi hc
      cases hq : s.phase <;> rw [hq] at hp this <;> simp_all [Phase.rank, Phase.unarmed, Phase.alive]
    | _ => simp_all [Phase.rank]

/-- **C123.** After the end, orderly or not, nothing happens any more. -/
theorem C123_nothing_after (s : Life.State) (h : s.phase = .finished ∨ s.phase = .panicked ∨ s.phase = .killed)
    (l : Life.Label) : step s l = none := by
  cases h' : step s l with
  | none => rfl
  | some s' => cases Life.step_tr h' <;> rcases h with h | h | h <;> simp_all [Phase.alive, Phase.unarmed]

/-- **C123.** The program is killed by a signal exactly if the signal comes before it waits for signals: it is the last thing
that happens, and the program was not up. -/
theorem C123_killed_exactly {ls : List Life.Label} {s : Life.State} (h : run init ls = some s) :
    s.phase = .killed ↔ ∃ before t, ls = before ++ [.signal] ∧ run init before = some t ∧ t.phase.alive = true ∧
      .install ∉ before := by
  have key : ∀ {ls : List Life.Label} {s : Life.State}, run init ls = some s → s.phase ≠ .killed → s.phase ≠ .panicked →
      (.install ∈ ls ↔ 12 ≤ s.phase.rank) := by
    intro ls s h
    refine Life.run_inv (P := fun ls s => s.phase ≠ .killed → s.phase ≠ .panicked → (.install ∈ ls ↔ 12 ≤ s.phase.rank))
      ?_ ?_ h
    · simp [init, Phase.rank]
    · intro ls s l s' _ hi ht
      cases ht with
      | store ok hp => cases ok <;> simp_all [Phase.rank]
      | chain ok hp => cases ok <;> simp_all [Phase.rank]
      | build ok hp => cases ok <;> simp_all [Phase.rank]
      | head ok hp => cases ok <;> simp_all [Phase.rank]
      | forks ok hp => cases ok <;> simp_all [Phase.rank]
      | list => simpa using hi
      | net => simpa using hi
      | signal hp => rcases hp with hp | hp <;> simp_all [Phase.rank]
      | _ => simp_all [Phase.rank]
  constructor
  · intro hk
    rcases List.eq_nil_or_concat ls with rfl | ⟨before, l, rfl⟩
    · cases h; cases hk
    · rw [List.concat_eq_append] at h ⊢
      rw [Life.run_append] at h
      cases ht : run init before with
      | none => rw [ht] at h; cases h
      | some t =>
        rw [ht] at h
        simp only [run] at h
        cases hu : step t l with
        | none => rw [hu] at h; cases h
        | some u =>
          rw [hu] at h; cases h
          have htr := Life.step_tr hu
          cases htr with
          | kill hp =>
            refine ⟨before, t, rfl, ht, ?_, fun hm => ?_⟩
            · cases hq : t.phase <;> rw [hq] at hp <;> first | rfl | cases hp
            · have := (key ht (fun h => by rw [h] at hp; cases hp) (fun h => by rw [h] at hp; cases hp)).1 hm
              cases hq : t.phase <;> rw [hq] at hp this <;> first | (cases hp; done) | (simp [Phase.rank] at this)
          | store ok hp => cases ok <;> cases hk
          | chain ok hp => cases ok <;> cases hk
          | build ok hp => cases ok <;> cases hk
          | head ok hp => cases ok <;> cases hk
          | forks ok hp => cases ok <;> cases hk
          | list ha => change t.phase = _ at hk; rw [hk] at ha; cases ha
          | net _ _ ha => change t.phase = _ at hk; rw [hk] at ha; cases ha
          | signal hp => change t.phase = _ at hk; rcases hp with hp | hp <;> rw [hk] at hp <;> cases hp
          | _ => cases hk
  · rintro ⟨before, t, rfl, ht, ha, hm⟩
    rw [Life.run_append, ht] at h
    simp only [run] at h
    cases hu : step t .signal with
    | none => rw [hu] at h; cases h
    | some u =>
      rw [hu] at h; cases h
      cases Life.step_tr hu with
      | kill => rfl
      | signal hp =>
        refine absurd ((key ht ?_ ?_).2 ?_) hm <;> rcases hp with hp | hp <;> rw [hp] <;> decide

/-- The claim: a signal to the running program does not just kill it. -/
def NeverKilled : Prop := ∀ ls s, run init ls = some s → s.phase ≠ .killed

/-- **C123 (refuted).** A signal that comes when the node has connections but `Start` has not returned kills the program, without
`Close`: the peers are not told. -/
theorem C123_early_refuted : ¬ NeverKilled ∧ ∃ ls s, run init ls = some s ∧ s.phase = .killed ∧ s.net.close = .notYet ∧
    .opening false ∈ s.net.links := by
  have hr : run init [.probe true, .probe true, .build true, .head true, .handler, .notify, .forks true, .errors,
      .net .connect, .signal] = some ⟨.killed, 2, true, .none, { Closing.init 0 with links := [.opening false] }, false⟩ := by
    decide
  exact ⟨fun h => h _ _ hr rfl, _, _, hr, rfl, rfl, by simp⟩

namespace Life

theorem present_iff (s : Closing.State) : present s = 0 ↔ ¬ HasPeer s := by
  unfold present HasPeer
  rw [List.countP_eq_zero]
  simp

/-- The manager waits to announce a peer and there is nobody to take it. -/
structure Stuck (s : State) : Prop where
  joint : Joint s
  listed : s.starter = .listed
  mgr : ∃ k, s.net.mgr = .starting (k + 1)
  link : ∃ (i : Nat) (c : Closing.Link), s.net.links[i]? = some c ∧ c ≠ .gone

theorem stuck_tr {s s' : State} {l : Label} (h : Stuck s) (ht : Tr s l s') : Stuck s' := by
  have hj := joint_tr h.joint ht
  obtain ⟨h4, h1, ⟨k, h2⟩, ⟨i, c, h3, h3'⟩⟩ := h
  cases ht with
  | list _ hs => rw [h1] at hs; cases hs
  | manager hp => rw [h4.fresh (by rw [hp]; decide) (by rw [hp]; decide)] at h1; cases h1
  | net l n ha hb hn =>
    have hd : Closing.Deaf s.net := .starting h2
    refine ⟨hj, h1, ?_, ?_⟩
    · cases Closing.step_tr hn with
      | spawn h => rw [h2] at h; cases h
      | ask h => rw [h2] at h; cases h
      | answer h => rw [h2] at h; cases h
      | abandon h => rw [h2] at h; cases h
      | skip _ h => rw [h2] at h; cases h
      | finish h => rw [h2] at h; cases h
      | _ => exact ⟨k, h2⟩
    · obtain ⟨c', hc', hg'⟩ := Closing.deaf_link hd hn h3 h3'
      exact ⟨i, c', hc', hg'⟩
  | _ => exact ⟨hj, h1, ⟨k, h2⟩, ⟨i, c, h3, h3'⟩⟩

theorem stuck_run {ls : List Label} : ∀ {s s' : State}, Stuck s → run s ls = some s' → Stuck s' := by
  induction ls with
  | nil => intro s s' h hr; cases hr; exact h
  | cons l ls ih =>
    intro s s' h hr
    simp only [run] at hr
    split at hr
    · rename_i t ht; exact ih (stuck_tr h (step_tr ht)) hr
    · cases hr

theorem stuck_of_list {ls : List Label} {s s' : State} (hr : run init ls = some s) (hp : present s.net ≠ 0)
    (h : step s .list = some s') : Stuck s' := by
  have hj := joint_tr (joint hr) (step_tr h)
  cases step_tr h with
  | list ha hs =>
    refine ⟨hj, rfl, ⟨present s.net - 1, ?_⟩, ?_⟩
    · show Closing.Mgr.starting _ = _
      rw [Nat.sub_add_cancel (Nat.pos_of_ne_zero hp)]
    · obtain ⟨c, hc, hc'⟩ := List.countP_pos_iff.1 (Nat.pos_of_ne_zero hp)
      obtain ⟨i, hi⟩ := List.mem_iff_getElem?.1 hc
      exact ⟨i, c, hi, fun h => by rw [h] at hc'; cases hc'⟩

theorem stuck_never {s : State} (h : Stuck s) : s.net.mgr ≠ .serving ∧ s.phase ≠ .finished := by
  obtain ⟨h4, h1, ⟨k, h2⟩, ⟨i, c, h3, h3'⟩⟩ := h
  refine ⟨by rw [h2]; exact fun h => (by cases h), fun hf => h3' ?_⟩
  exact h4.inv.returned (h4.finished hf) c (Closing.mem_of_get h3)

end Life

/-- **C124 (refuted, in every continuation).** If a peer is connected when the connection manager looks for peers while it starts,
the manager never serves, whatever happens, and no signal and no number of signals ends the program in order. -/
theorem C124_never_refuted {before after : List Life.Label} {s s' : Life.State} (hr : run init before = some s)
    (hp : HasPeer s.net) (h : run s (.list :: after) = some s') :
    s'.net.mgr ≠ .serving ∧ s'.phase ≠ .finished := by
  simp only [run] at h
  split at h
  · rename_i t ht; exact Life.stuck_never (Life.stuck_run (Life.stuck_of_list hr (fun h => (Life.present_iff _).1 h hp) ht) h)
  · cases h

/-- The claim: once the node is up the connection manager serves in the end. -/
def ManagerServes : Prop := ∀ (σ : Nat → Life.State) (ev : Nat → Option Life.Label), Exec σ ev → Fair σ ev →
  ∀ n, (σ n).phase = .waiting → ∃ m, n ≤ m ∧ ((σ m).net.mgr = .serving ∨ (σ m).phase = .finished)

/-- The claim: a signal to a node that is up ends the program. -/
def SignalEnds : Prop := ∀ (σ : Nat → Life.State) (ev : Nat → Option Life.Label), Exec σ ev → Fair σ ev →
  ∀ n, (σ n).phase = .waiting → ev n = some .signal → ∃ m, n ≤ m ∧ (σ m).phase = .finished

namespace Life
/-- A peer that has waited at the gate is let in as soon as the error handler runs, before the manager looks for peers. -/
def early : List Label := [.probe true, .probe true, .build true, .head true, .handler, .notify, .forks true, .errors,
  .net .connect, .toggle, .manager, .list, .applicator, .install]
/-- Then a signal comes, and another one. -/
def late : List Label := early ++ [.signal, .take, .net .close, .net .hostClose, .signal]
end Life

/-- **C124 (refuted).** -/
theorem C124_serves_refuted : ¬ ManagerServes := by
  intro hc
  have hr : run init Life.early = some ⟨.waiting, 2, true, .listed, ⟨[.opening false], .starting 1, false, .notYet⟩, false⟩ := by
    decide
  obtain ⟨m, hm, h⟩ := hc _ _ (Life.onSt_exec hr) (Life.onSt_fair hr (by decide)) 14
    (by rw [Life.onSt_end _ _ _ hr 14 (by decide)])
  rw [Life.onSt_end _ _ _ hr m (Nat.le_trans (by decide) hm)] at h
  rcases h with h | h <;> cases h

/-- **C123 (refuted).** After an early connection the first signal makes `main` wait in `Close` for ever, and the next ones are
not looked at: the program has to be killed. -/
theorem C123_stuck_refuted : ¬ SignalEnds := by
  intro hc
  have hr : run init Life.late = some ⟨.closing, 2, true, .listed, ⟨[.opening true], .starting 1, false, .waiting⟩, true⟩ := by
    decide
  obtain ⟨m, hm, h⟩ := hc _ _ (Life.onSt_exec hr) (Life.onSt_fair hr (by decide)) 14 (by decide) (by decide)
  rcases Nat.lt_or_ge m 19 with h2 | h2
  · interval_cases m <;> revert h <;> decide
  · rw [Life.onSt_end _ _ _ hr m (Nat.le_trans (by decide) h2)] at h; cases h

namespace Life

/-- The part of an execution that concerns the host, the manager and `Close`. -/
def netEv (ev : Nat → Option Label) (n : Nat) : Option Closing.Label :=
  match ev n with
  | some (.net l) => some l
  | _ => none

theorem net_exec {σ : Nat → State} {ev : Nat → Option Label} (hx : Exec σ ev) (hq : Quiet σ ev) :
    Spec.Closing.Exec 0 (fun n => (σ n).net) (netEv ev) := by
  refine ⟨by show (σ 0).net = _; rw [hx.1]; rfl, fun n => ?_⟩
  obtain ⟨ls, hl⟩ := exec_run hx n
  have hj := joint hl
  rcases exec_cases hx n with ⟨h1, h2⟩ | ⟨l, h1, h2⟩
  · simp only [netEv, h1, h2]
  · simp only [netEv, h1]
    generalize hσ : σ (n + 1) = t at h2
    cases h2 with
    | net l n ha hb hn => exact hn
    | list ha hs =>
      have h3 := hj.starter (by rw [hs]; exact fun h => by cases h)
      show ({ (σ n).net with mgr := .starting (present (σ n).net) } : Closing.State) = (σ n).net
      rw [(present_iff _).2 (hq n h1), ← h3]
    | _ => rfl

theorem net_kept {σ : Nat → State} {ev : Nat → Option Label} (hx : Exec σ ev) : Spec.Closing.Kept (netEv ev) := by
  intro n
  rcases exec_cases hx n with ⟨h1, _⟩ | ⟨l, h1, h2⟩
  · simp [netEv, h1]
  · simp only [netEv, h1]
    generalize σ (n + 1) = t at h2
    cases h2 with
    | net l n ha hb hn => refine ⟨fun h => ?_, fun h => ?_⟩ <;> cases h <;> cases hb
    | _ => exact ⟨fun h => (by cases h), fun h => (by cases h)⟩

/-- Once the node is up it stays up until the end. -/
theorem stays_up {σ : Nat → State} {ev : Nat → Option Label} (hx : Exec σ ev) {n : Nat} (h : 12 ≤ (σ n).phase.rank) :
    ∀ m, n ≤ m → 12 ≤ (σ m).phase.rank := by
  intro m hm
  induction m, hm using Nat.le_induction with
  | base => exact h
  | succ m hm ih =>
    rcases exec_cases hx m with ⟨_, h2⟩ | ⟨l, h1, h2⟩
    · rw [h2]; exact ih
    · generalize σ (m + 1) = t at h2
      cases h2 with
      | take => simp [Phase.rank]
      | exit => simp [Phase.rank]
      | list => exact ih
      | net => exact ih
      | signal => exact ih
      | kill hp => exfalso; cases hq : (σ m).phase <;> rw [hq] at ih hp <;> simp [Phase.rank, Phase.unarmed, Phase.alive] at ih hp
      | _ => simp_all [Phase.rank]

theorem up_alive {p : Phase} (h : 12 ≤ p.rank) (hf : p ≠ .finished) : p.alive = true := by
  cases p <;> simp_all [Phase.rank, Phase.alive]

theorem took_of {ev : Nat → Option Label} {m : Nat} {l : Closing.Label} (h : ev m = some (.net l)) : netEv ev m = some l := by
  simp [netEv, h]

/-- What can be done by the parts can be done by the whole. -/
theorem lift_step {s : State} {l : Closing.Label} (ha : s.phase.alive = true) (hb : allowed s l = true)
    (h : (Closing.step s.net l).isSome = true) : (step s (.net l)).isSome = true := by
  simp [step, ha, hb, h]

theorem listed_eventually {σ : Nat → State} {ev : Nat → Option Label} (hx : Exec σ ev) (hf : Fair σ ev) {n : Nat}
    (hu : 12 ≤ (σ n).phase.rank) (hno : ∀ m, n ≤ m → (σ m).phase ≠ .finished) :
    ∃ k, n ≤ k ∧ ∀ m, k ≤ m → (σ m).starter = .listed := by
  have halive := fun m hm => up_alive (stays_up hx hu m hm) (hno m hm)
  have hkeep : ∀ k, (σ k).starter = .listed → n ≤ k → ∀ m, k ≤ m → (σ m).starter = .listed := by
    intro k hk hnk m hm
    induction m, hm using Nat.le_induction with
    | base => exact hk
    | succ m hm ih =>
      rcases exec_cases hx m with ⟨_, h2⟩ | ⟨l, h1, h2⟩
      · rw [h2]; exact ih
      · have := stays_up hx hu m (by omega)
        generalize σ (m + 1) = t at h2
        cases h2 with
        | manager hp => rw [hp] at this; simp [Phase.rank] at this
        | list => rfl
        | _ => exact ih
  by_cases hex : ∃ k, n ≤ k ∧ (σ k).starter = .listed
  · obtain ⟨k, h1, h2⟩ := hex; exact ⟨k, h1, hkeep k h2 h1⟩
  · have hs : ∀ m, n ≤ m → (σ m).starter = .spawned := by
      intro m hm
      obtain ⟨ls, hl⟩ := exec_run hx m
      have h1 := (joint hl).started (by have := stays_up hx hu m hm; omega)
      cases h : (σ m).starter with
      | none => exact absurd h h1
      | spawned => rfl
      | listed => exact absurd ⟨m, hm, h⟩ hex
    obtain ⟨m, hm, he⟩ := hf.starter.1 n (fun m hm => by simp [step, halive m hm, hs m hm])
    rcases exec_cases hx m with ⟨h1, _⟩ | ⟨l, h1, h2⟩
    · rw [he] at h1; cases h1
    · rw [he] at h1; cases h1
      have h3 := hs (m + 1) (by omega)
      generalize σ (m + 1) = t at h2 h3
      cases h2; cases h3

theorem net_fair {σ : Nat → State} {ev : Nat → Option Label} (hx : Exec σ ev) (hf : Fair σ ev) {n : Nat}
    (hu : 12 ≤ (σ n).phase.rank) (hno : ∀ m, n ≤ m → (σ m).phase ≠ .finished) :
    Spec.Closing.Fair (fun n => (σ n).net) (netEv ev) := by
  obtain ⟨k, hk, hl⟩ := listed_eventually hx hf hu hno
  have halive := fun m hm => up_alive (stays_up hx hu m hm) (hno m hm)
  have weak : ∀ l, Weak σ ev (.net l) → (∀ m, k ≤ m → (Closing.step (σ m).net l).isSome = true → allowed (σ m) l = true) →
      Spec.Closing.Weak (fun n => (σ n).net) (netEv ev) l := by
    intro l hw hb a ha
    obtain ⟨m, hm, he⟩ := hw (a + k) (fun m hm =>
      lift_step (halive m (by omega)) (hb m (by omega) (ha m (by omega))) (ha m (by omega)))
    exact ⟨m, by omega, took_of he⟩
  have strong : ∀ l, Strong σ ev (.net l) → (∀ m, allowed (σ m) l = true) →
      Spec.Closing.Strong (fun n => (σ n).net) (netEv ev) l := by
    intro l hw hb a ha
    obtain ⟨m, hm, he⟩ := hw (a + k) (fun m hm => by
      obtain ⟨j, hj, h⟩ := ha m (by omega)
      exact ⟨j, hj, lift_step (halive j (by omega)) (hb j) h⟩)
    exact ⟨m, by omega, took_of he⟩
  have hclosing : ∀ m, k ≤ m → (σ m).net.close ≠ .notYet → (σ m).phase = .closing := by
    intro m hm h
    obtain ⟨ls, hr⟩ := exec_run hx m
    rcases (joint hr).closing h with h | h
    · exact h
    · exact absurd h (hno m (by omega))
  refine ⟨weak _ hf.starter.2 (fun m hm _ => by simp [allowed, hl m hm]), weak _ hf.answer (fun _ _ _ => rfl),
    weak _ (hf.main _ (by decide)) (fun m hm h => ?_), weak _ (hf.main _ (by decide)) (fun m hm h => ?_),
    fun i => strong _ (hf.took i) (fun _ => rfl), fun i => strong _ (hf.left i) (fun _ => rfl)⟩
  · rw [Option.isSome_iff_exists] at h
    obtain ⟨t, h⟩ := h
    simp only [allowed, beq_iff_eq]
    exact hclosing m hm (by cases Closing.step_tr h with | hostClose h' => rw [h']; exact fun h => by cases h)
  · rw [Option.isSome_iff_exists] at h
    obtain ⟨t, h⟩ := h
    simp only [allowed, beq_iff_eq]
    exact hclosing m hm (by cases Closing.step_tr h with | done h' => rw [h']; exact fun h => by cases h)

end Life

/-- **C124 (partial).** If no peer is connected when the manager looks for peers while it starts, then once the node is up the
manager serves again and again, until the program ends. Missing: `C124_serves_refuted`. -/
theorem C124_serves_partial {σ : Nat → Life.State} {ev : Nat → Option Life.Label} (hx : Exec σ ev) (hf : Fair σ ev)
    (hq : Quiet σ ev) {n : Nat} (hw : (σ n).phase = .waiting ∨ (σ n).phase = .closing) :
    ∃ m, n ≤ m ∧ ((σ m).net.mgr = .serving ∨ (σ m).phase = .finished) := by
  have hu : 12 ≤ (σ n).phase.rank := by rcases hw with h | h <;> rw [h] <;> decide
  by_contra hno
  have hfin : ∀ m, n ≤ m → (σ m).phase ≠ .finished := fun m hm h => hno ⟨m, hm, .inr h⟩
  obtain ⟨m, hm, h⟩ := Closing.serves (Life.net_exec hx hq) (Life.net_kept hx) (Life.net_fair hx hf hu hfin) n
  exact hno ⟨m, hm, .inl h⟩

/-- **C124 (partial).** In the same case every connection that is made is taken notice of, unless the program ends before. -/
theorem C124_noticed_partial {σ : Nat → Life.State} {ev : Nat → Option Life.Label} (hx : Exec σ ev) (hf : Fair σ ev)
    (hq : Quiet σ ev) {n i : Nat} {c : Bool} (hw : (σ n).phase = .waiting ∨ (σ n).phase = .closing)
    (hl : (σ n).net.links[i]? = some (.opening c)) :
    ∃ m, n ≤ m ∧ (ev m = some (.net (.took i)) ∨ (σ m).phase = .finished) := by
  have hu : 12 ≤ (σ n).phase.rank := by rcases hw with h | h <;> rw [h] <;> decide
  by_contra hno
  have hfin : ∀ m, n ≤ m → (σ m).phase ≠ .finished := fun m hm h => hno ⟨m, hm, .inr h⟩
  obtain ⟨m, hm, h⟩ := C115_connected_partial (Life.net_exec hx hq) (Life.net_kept hx) (Life.net_fair hx hf hu hfin) hl
  refine hno ⟨m, hm, .inl ?_⟩
  simp only [Life.netEv] at h
  split at h
  · rename_i l he; cases h; exact he
  · cases h

/-- **C123 (partial).** If no peer is connected when the manager looks for peers while it starts, a signal to a node that is up
ends the program, in order (`C123_orderly`), whatever connections there are and are being made. Missing:
`C123_early_refuted`, `C123_stuck_refuted`. -/
theorem C123_ends_partial {σ : Nat → Life.State} {ev : Nat → Option Life.Label} (hx : Exec σ ev) (hf : Fair σ ev)
    (hq : Quiet σ ev) {n : Nat} (hw : (σ n).phase = .waiting) (hs : ev n = some .signal) :
    ∃ m, n ≤ m ∧ (σ m).phase = .finished := by
  by_contra hno
  have hno : ∀ m, n ≤ m → (σ m).phase ≠ .finished := fun m hm h => hno ⟨m, hm, h⟩
  have hu : 12 ≤ (σ n).phase.rank := by rw [hw]; decide
  have hph : ∀ m, n ≤ m → (σ m).phase = .waiting ∨ (σ m).phase = .closing := by
    intro m hm
    have h1 := Life.stays_up hx hu m hm
    have h2 := hno m hm
    cases hp : (σ m).phase <;> rw [hp] at h1 h2 <;> simp [Phase.rank] at h1 h2 ⊢
  -- the signal is taken
  have h1 : ∃ a, n ≤ a ∧ (σ a).phase = .closing := by
    by_contra hc
    have hwait : ∀ m, n ≤ m → (σ m).phase = .waiting := fun m hm =>
      (hph m hm).resolve_right (fun h => hc ⟨m, hm, h⟩)
    have hsig : ∀ m, n + 1 ≤ m → (σ m).signal = true := by
      intro m hm
      induction m, hm using Nat.le_induction with
      | base =>
        rcases Life.exec_cases hx n with ⟨h1, _⟩ | ⟨l, h1, h2⟩
        · rw [hs] at h1; cases h1
        · rw [hs] at h1; cases h1
          generalize σ (n + 1) = t at h2
          cases h2 with
          | signal => rfl
          | kill h => rw [hw] at h; cases h
      | succ m hm ih =>
        rcases Life.exec_cases hx m with ⟨_, h2⟩ | ⟨l, h1, h2⟩
        · rw [h2]; exact ih
        · have h3 := hwait (m + 1) (by omega)
          generalize σ (m + 1) = t at h2 h3
          cases h2 with
          | take => cases h3
          | signal => rfl
          | _ => exact ih
    obtain ⟨m, hm, he⟩ := hf.main .take (by decide) (n + 1) (fun m hm => by simp [step, hwait m (by omega), hsig m hm])
    rcases Life.exec_cases hx m with ⟨h1, _⟩ | ⟨l, h1, h2⟩
    · rw [he] at h1; cases h1
    · rw [he] at h1; cases h1
      have h3 := hwait (m + 1) (by omega)
      generalize σ (m + 1) = t at h2 h3
      cases h2; cases h3
  obtain ⟨a, ha, hcl⟩ := h1
  have hclose : ∀ m, a ≤ m → (σ m).phase = .closing := by
    intro m hm
    induction m, hm using Nat.le_induction with
    | base => exact hcl
    | succ m hm ih =>
      rcases Life.exec_cases hx m with ⟨_, h2⟩ | ⟨l, h1, h2⟩
      · rw [h2]; exact ih
      · rcases hph (m + 1) (by omega) with h | h
        · generalize σ (m + 1) = t at h2 h
          cases h2 with
          | install hp => rw [ih] at hp; cases hp
          | store ok hp => rw [ih] at hp; cases hp
          | chain ok hp => rw [ih] at hp; cases hp
          | build ok hp => rw [ih] at hp; cases hp
          | head ok hp => rw [ih] at hp; cases hp
          | forks ok hp => rw [ih] at hp; cases hp
          | list => exact ih
          | net => exact ih
          | signal => exact ih
          | _ => cases h
        · exact h
  -- Close is called
  have h2 : ∃ b, a ≤ b ∧ (σ b).net.close ≠ .notYet := by
    by_contra hc
    have hn : ∀ m, a ≤ m → (σ m).net.close = .notYet := fun m hm => by
      by_contra h; exact hc ⟨m, hm, h⟩
    obtain ⟨m, hm, he⟩ := hf.main (.net .close) (by decide) a (fun m hm => by
      simp [step, hclose m hm, Phase.alive, allowed, Closing.step, hn m hm])
    rcases Life.exec_cases hx m with ⟨h1, _⟩ | ⟨l, h1, h2⟩
    · rw [he] at h1; cases h1
    · rw [he] at h1; cases h1
      have h3 := hn (m + 1) (by omega)
      generalize σ (m + 1) = t at h2 h3
      cases h2 with
      | net _ _ _ _ hs =>
        generalize (σ m).net = x at hs
        cases Closing.step_tr hs; cases h3
  obtain ⟨b, hb, hnb⟩ := h2
  obtain ⟨c, hc, hr⟩ := C115_returns_partial (Life.net_exec hx hq) (Life.net_kept hx) (Life.net_fair hx hf hu hno) hnb
  have hret : ∀ m, c ≤ m → (σ m).net.close = .returned := by
    intro m hm
    induction m, hm using Nat.le_induction with
    | base => exact hr
    | succ m hm ih =>
      rcases Life.exec_cases hx m with ⟨_, h2⟩ | ⟨l, h1, h2⟩
      · rw [h2]; exact ih
      · generalize σ (m + 1) = t at h2
        cases h2 with
        | net l n' _ _ hs =>
          show n'.close = _
          cases Closing.step_tr hs with
          | close h => rw [ih] at h; cases h
          | hostClose h => rw [ih] at h; cases h
          | done h => rfl
          | _ => exact ih
        | _ => exact ih
  obtain ⟨m, hm, he⟩ := hf.main .exit (by decide) c (fun m hm => by
    simp [step, hclose m (by omega), hret m hm])
  rcases Life.exec_cases hx m with ⟨h1, _⟩ | ⟨l, h1, h2⟩
  · rw [he] at h1; cases h1
  · rw [he] at h1; cases h1
    have h3 := hno (m + 1) (by omega)
    generalize σ (m + 1) = t at h2 h3
    cases h2; exact h3 rfl

/-! ### Examples -/

namespace Life
/-- Failures before the start, no connection before the manager looks, then connections, a signal, and the orderly end. -/
def demo : List Label := [.probe false, .probe true, .probe false, .probe false, .probe true, .build true, .head true, .handler,
  .notify, .forks false, .forks true, .errors, .toggle, .manager, .list, .net .spawn, .applicator, .net .connect, .install,
  .net (.took 0), .net .connect, .signal, .take, .net .close, .signal, .net .hostClose, .net (.left 0), .net (.took 1),
  .net (.left 1), .net .done, .exit]

theorem demo_run : run init demo =
    some ⟨.finished, 5, true, .listed, ⟨[.gone, .gone], .serving, false, .returned⟩, true⟩ := by decide

theorem demo_get (n : Nat) (h : 31 ≤ n) : demo[n]? = none := by simpa [demo] using h
end Life

/-- The hypotheses of `C123_ends_partial` and `C124_serves_partial` can be met, with two connections. -/
example : Exec (Life.onSt init Life.demo) (fun n => Life.demo[n]?) ∧ Fair (Life.onSt init Life.demo) (fun n => Life.demo[n]?) ∧
    Quiet (Life.onSt init Life.demo) (fun n => Life.demo[n]?) ∧ (Life.onSt init Life.demo 21).phase = .waiting ∧
    Life.demo[21]? = some .signal ∧ (Life.onSt init Life.demo 21).net.links = [.up, .opening false] := by
  refine ⟨Life.onSt_exec Life.demo_run, Life.onSt_fair Life.demo_run (by decide), fun n h => ?_, by decide, by decide, by decide⟩
  rcases Nat.lt_or_ge n 31 with h2 | h2
  · interval_cases n <;> (rw [← Life.present_iff]; revert h; decide)
  · simp only [Life.demo_get n h2] at h; cases h

/-- The hypotheses of `C122_comes_up_partial` can be met, with failures of both services. -/
example : ∃ (σ : Nat → Life.State) (ev : Nat → Option Life.Label), Exec σ ev ∧ Answers σ ev ∧ Fair σ ev ∧
    (∀ m, ev m ≠ some .signal ∧ ev m ≠ some (.build false) ∧ ev m ≠ some (.head false)) ∧ ev 0 = some (.probe false) := by
  have hr : run init (Life.demo.take 20) = some ⟨.waiting, 5, true, .listed, ⟨[.up], .serving, false, .notYet⟩, false⟩ := by decide
  refine ⟨_, _, Life.onSt_exec hr, ⟨Life.onSt_weak hr (by decide), Life.onSt_weak hr (by decide), Life.onSt_weak hr (by decide),
    Life.onSt_weak hr (by decide)⟩, Life.onSt_fair hr (by decide), fun m => ?_, by decide⟩
  rcases Nat.lt_or_ge m 20 with h | h
  · interval_cases m <;> decide
  · have : (Life.demo.take 20)[m]? = none := by simp [h]
    simp [this]

end KP2P

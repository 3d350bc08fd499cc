import Verif.Spec.NodeClose
import Verif.Proof.Fair
/-!
# C115: Close returns
-/

namespace KP2P
open KP2P.Closing KP2P.Spec.Closing

namespace Closing

/-- The steps, one case each. -/
inductive Tr (s : State) : Label → State → Prop
  | connect : s.close = .notYet ∨ s.close = .quiet → Tr s .connect { s with links := s.links ++ [.opening false] }
  | dropOpening (i) : s.links[i]? = some (.opening false) → Tr s (.drop i) { s with links := s.links.set i (.opening true) }
  | dropUp (i) : s.links[i]? = some .up → Tr s (.drop i) { s with links := s.links.set i .leaving }
  | took (i c) : s.mgr = .serving → s.links[i]? = some (.opening c) →
      Tr s (.took i) { s with links := s.links.set i (if c then .leaving else .up) }
  | left (i) : s.mgr = .serving → s.links[i]? = some .leaving → Tr s (.left i) { s with links := s.links.set i .gone }
  | spawn : s.mgr = .starting 0 → Tr s .spawn { s with mgr := .serving }
  | ask : s.mgr = .serving → Tr s .ask { s with mgr := .replying true }
  | answer : s.mgr = .replying true → Tr s .answer { s with mgr := .serving }
  | abandon : s.mgr = .replying true → Tr s .abandon { s with mgr := .replying false }
  | skip (h) : s.mgr = .replying h → s.ctxDone = true → Tr s .skip { s with mgr := .serving }
  | cancel : Tr s .cancel { s with ctxDone := true }
  | finish : s.mgr = .serving → s.ctxDone = true → Tr s .finish { s with mgr := .ended }
  | close : s.close = .notYet → Tr s .close { s with close := .quiet }
  | hostClose : s.close = .quiet → Tr s .hostClose { s with close := .waiting, links := s.links.map Link.shut }
  | done : s.close = .waiting → (∀ l ∈ s.links, l = .gone) → Tr s .done { s with close := .returned }

theorem step_tr {s s' : State} {l : Label} (h : step s l = some s') : Tr s l s' := by
  cases l <;> simp only [step] at h
  case connect => split at h <;> cases h; exact .connect ‹_›
  case drop i => split at h <;> cases h; exacts [.dropOpening i ‹_›, .dropUp i ‹_›]
  case took i => split at h <;> cases h; exact .took i _ ‹_› ‹_›
  case left i => split at h <;> cases h; exact .left i ‹_› ‹_›
  case spawn => split at h <;> cases h; exact .spawn ‹_›
  case ask => split at h <;> cases h; exact .ask ‹_›
  case answer => split at h <;> cases h; exact .answer ‹_›
  case abandon => split at h <;> cases h; exact .abandon ‹_›
  case skip => split at h <;> [split at h; skip] <;> cases h; exact .skip _ ‹_› ‹_›
  case cancel => cases h; exact .cancel
  case finish => split at h <;> cases h; exact .finish (‹_ ∧ _›).1 (‹_ ∧ _›).2
  case close => split at h <;> cases h; exact .close ‹_›
  case hostClose => split at h <;> cases h; exact .hostClose ‹_›
  case done => split at h <;> cases h; exact .done (‹_ ∧ _›).1 (‹_ ∧ _›).2

/-- While `Host.Close` waits every connection is closed; afterwards every connection is gone. -/
structure Inv (s : State) : Prop where
  waiting : s.close = .waiting → ∀ l ∈ s.links, l = .opening true ∨ l = .leaving ∨ l = .gone
  returned : s.close = .returned → ∀ l ∈ s.links, l = .gone

theorem inv_init (k : Nat) : Inv (init k) := ⟨by simp [init], by simp [init]⟩

theorem mem_of_get {l : Link} {ls : List Link} {i : Nat} (h : ls[i]? = some l) : l ∈ ls := List.mem_of_getElem? h

theorem inv_step {s s' : State} {l : Label} (hi : Inv s) (hs : step s l = some s') : Inv s' := by
  cases step_tr hs with
  | connect hc => refine ⟨fun h => ?_, fun h => ?_⟩ <;> rcases hc with hc | hc <;> (rw [hc] at h; cases h)
  | dropOpening i hg =>
    refine ⟨fun h x hx => ?_, fun h x hx => ?_⟩
    · rcases hi.waiting h _ (mem_of_get hg) with h | h | h <;> cases h
    · cases hi.returned h _ (mem_of_get hg)
  | dropUp i hg =>
    refine ⟨fun h x hx => ?_, fun h x hx => ?_⟩
    · rcases hi.waiting h _ (mem_of_get hg) with h | h | h <;> cases h
    · cases hi.returned h _ (mem_of_get hg)
  | took i c hm hg =>
    refine ⟨fun h x hx => ?_, fun h x hx => ?_⟩
    · rcases List.mem_or_eq_of_mem_set hx with hx | rfl
      · exact hi.waiting h _ hx
      · rcases hi.waiting h _ (mem_of_get hg) with h | h | h <;> cases h
        exact .inr (.inl rfl)
    · cases hi.returned h _ (mem_of_get hg)
  | left i hm hg =>
    refine ⟨fun h x hx => ?_, fun h x hx => ?_⟩
    · rcases List.mem_or_eq_of_mem_set hx with hx | rfl
      · exact hi.waiting h _ hx
      · exact .inr (.inr rfl)
    · cases hi.returned h _ (mem_of_get hg)
  | hostClose hc =>
    refine ⟨fun _ x hx => ?_, fun h => by cases h⟩
    obtain ⟨y, _, rfl⟩ := List.mem_map.1 hx
    cases y <;> simp [Link.shut]
  | done hc ha => exact ⟨fun h => (by cases h), fun _ => ha⟩
  | close hc => exact ⟨fun h => (by cases h), fun h => (by cases h)⟩
  | _ => exact ⟨hi.waiting, hi.returned⟩

theorem inv_run : ∀ {ls : List Label} {s s' : State}, Inv s → run s ls = some s' → Inv s'
  | [], s, s', hi, h => by cases h; exact hi
  | l :: ls, s, s', hi, h => by
    simp only [run] at h
    split at h
    · rename_i t ht; exact inv_run (inv_step hi ht) h
    · cases h

/-- One step of an execution. -/
theorem exec_cases {k : Nat} {σ : Nat → State} {ev : Nat → Option Label} (hx : Exec k σ ev) (n : Nat) :
    (ev n = none ∧ σ (n + 1) = σ n) ∨ ∃ l, ev n = some l ∧ step (σ n) l = some (σ (n + 1)) := by
  have h := hx.2 n
  cases he : ev n with
  | none => rw [he] at h; exact .inl ⟨rfl, h⟩
  | some l => rw [he] at h; exact .inr ⟨l, rfl, h⟩

/-- A property kept by every step. -/
theorem exec_keeps {k : Nat} {σ : Nat → State} {ev : Nat → Option Label} (hx : Exec k σ ev) {P : State → Prop}
    (hs : ∀ n l, ev n = some l → P (σ n) → step (σ n) l = some (σ (n + 1)) → P (σ (n + 1))) {n : Nat} (h : P (σ n)) :
    ∀ {m : Nat}, n ≤ m → P (σ m) := by
  intro m hm
  induction m, hm using Nat.le_induction with
  | base => exact h
  | succ m hm ih =>
    rcases exec_cases hx m with ⟨_, h2⟩ | ⟨l, h1, h2⟩
    · rw [h2]; exact ih
    · exact hs m l h1 ih h2

theorem inv_exec {k : Nat} {σ : Nat → State} {ev : Nat → Option Label} (hx : Exec k σ ev) (n : Nat) : Inv (σ n) :=
  exec_keeps (P := Inv) hx (fun _ _ _ h hs => inv_step h hs) (n := 0) (by rw [hx.1]; exact inv_init k) (Nat.zero_le n)

/-- With the manager kept it is about to be spawned, serves, or has a reply that is waited for. -/
def Well (s : State) : Prop := s.mgr = .starting 0 ∨ s.mgr = .serving ∨ s.mgr = .replying true

theorem well_exec {σ : Nat → State} {ev : Nat → Option Label} (hx : Exec 0 σ ev) (hk : Kept ev) (n : Nat) :
    Well (σ n) ∧ (σ n).ctxDone = false := by
  refine exec_keeps (P := fun s => Well s ∧ s.ctxDone = false) hx (fun n l he h hs => ?_) (n := 0)
    (by rw [hx.1]; exact ⟨.inl rfl, rfl⟩) (Nat.zero_le n)
  obtain ⟨hw, hd⟩ := h
  generalize hσ : σ (n + 1) = s' at hs
  cases step_tr hs with
  | abandon => exact absurd he (hk n).1
  | cancel => exact absurd he (hk n).2
  | spawn => exact ⟨.inr (.inl rfl), hd⟩
  | ask => exact ⟨.inr (.inr rfl), hd⟩
  | answer => exact ⟨.inr (.inl rfl), hd⟩
  | skip => exact ⟨.inr (.inl rfl), hd⟩
  | finish _ h => rw [hd] at h; cases h
  | _ => exact ⟨hw, hd⟩

/-- The manager gets back to its `select` again and again. -/
theorem serves {σ : Nat → State} {ev : Nat → Option Label} (hx : Exec 0 σ ev) (hk : Kept ev) (hf : Fair σ ev) (n : Nat) :
    ∃ m, n ≤ m ∧ (σ m).mgr = .serving := by
  by_contra hno
  have hno : ∀ m, n ≤ m → (σ m).mgr ≠ .serving := fun m hm h => hno ⟨m, hm, h⟩
  have key : ∀ m, n ≤ m → ev m ≠ some .spawn ∧ ev m ≠ some .answer := by
    intro m hm
    refine ⟨fun h => ?_, fun h => ?_⟩ <;>
    · rcases exec_cases hx m with ⟨h1, _⟩ | ⟨l, h1, h2⟩
      · rw [h1] at h; cases h
      · rw [h1] at h; cases h
        have h3 := hno (m + 1) (by omega)
        generalize σ (m + 1) = s' at h2 h3
        cases step_tr h2; exact h3 rfl
  have hstay : ∀ m, n ≤ m → (σ m).mgr = (σ n).mgr := by
    intro m hm
    induction m, hm using Nat.le_induction with
    | base => rfl
    | succ m hm ih =>
      rcases exec_cases hx m with ⟨_, h2⟩ | ⟨l, h1, h2⟩
      · rw [h2]; exact ih
      · have h3 := key m hm
        have h4 := hno m hm
        have hd := (well_exec hx hk m).2
        rw [← ih]
        generalize σ (m + 1) = s' at h2
        cases step_tr h2 with
        | spawn => exact absurd h1 h3.1
        | answer => exact absurd h1 h3.2
        | ask h => exact absurd h h4
        | abandon => exact absurd h1 (hk m).1
        | skip _ _ h => rw [hd] at h; cases h
        | finish h => exact absurd h h4
        | _ => rfl
  rcases (well_exec hx hk n).1 with h | h | h
  · obtain ⟨m, hm, he⟩ := hf.spawn n fun m hm => by simp [step, hstay m hm, h]
    exact (key m hm).1 he
  · exact hno n (Nat.le_refl n) h
  · obtain ⟨m, hm, he⟩ := hf.answer n fun m hm => by simp [step, hstay m hm, h]
    exact (key m hm).2 he

/-- What can happen to one connection. -/
theorem link_step {s s' : State} {l : Label} {i : Nat} {c : Link} (hs : step s l = some s') (hc : s.links[i]? = some c) :
    s'.links[i]? = some c ∨ (l = .drop i ∧ s'.links[i]? = some c.shut) ∨ (l = .hostClose ∧ s'.links[i]? = some c.shut) ∨
    (l = .took i ∧ ∃ b, c = .opening b ∧ s'.links[i]? = some (if b then .leaving else .up)) ∨
    (l = .left i ∧ c = .leaving ∧ s'.links[i]? = some .gone) := by
  have hlt : i < s.links.length := by
    rcases Nat.lt_or_ge i s.links.length with h | h
    · exact h
    · rw [List.getElem?_eq_none h] at hc; cases hc
  cases step_tr hs with
  | connect => left; show (s.links ++ _)[i]? = _; rw [List.getElem?_append_left hlt]; exact hc
  | dropOpening j hg =>
    by_cases hj : j = i
    · subst hj; rw [hc] at hg; cases hg; right; left; exact ⟨rfl, by simp [hlt, Link.shut]⟩
    · left; simp [hj, hc]
  | dropUp j hg =>
    by_cases hj : j = i
    · subst hj; rw [hc] at hg; cases hg; right; left; exact ⟨rfl, by simp [hlt, Link.shut]⟩
    · left; simp [hj, hc]
  | took j b hm hg =>
    by_cases hj : j = i
    · subst hj; rw [hc] at hg; cases hg; right; right; right; left; exact ⟨rfl, b, rfl, by simp [hlt]⟩
    · left; simp [hj, hc]
  | left j hm hg =>
    by_cases hj : j = i
    · subst hj; rw [hc] at hg; cases hg; right; right; right; right; exact ⟨rfl, rfl, by simp [hlt]⟩
    · left; simp [hj, hc]
  | hostClose => right; right; left; exact ⟨rfl, by simp [hc]⟩
  | _ => left; exact hc

end Closing

/-- **C115 (partial).** While the manager serves, every call of `Connected` returns. Missing: `C115_context_refuted`,
`C115_query_refuted`, `C115_started_refuted`. -/
theorem C115_connected_partial {σ : Nat → Closing.State} {ev : Nat → Option Closing.Label} (hx : Exec 0 σ ev) (hk : Kept ev)
    (hf : Fair σ ev) {n i : Nat} {c : Bool} (h : (σ n).links[i]? = some (.opening c)) :
    ∃ m, n ≤ m ∧ ev m = some (.took i) := by
  by_contra hno
  have hno : ∀ m, n ≤ m → ev m ≠ some (.took i) := fun m hm h => hno ⟨m, hm, h⟩
  have key : ∀ m, n ≤ m → ∃ c, (σ m).links[i]? = some (.opening c) := by
    intro m hm
    induction m, hm using Nat.le_induction with
    | base => exact ⟨c, h⟩
    | succ m hm ih =>
      obtain ⟨c, hc⟩ := ih
      rcases exec_cases hx m with ⟨_, h2⟩ | ⟨l, h1, h2⟩
      · rw [h2]; exact ⟨c, hc⟩
      · rcases link_step h2 hc with h3 | ⟨_, h3⟩ | ⟨_, h3⟩ | ⟨rfl, _⟩ | ⟨_, h3, _⟩
        · exact ⟨c, h3⟩
        · exact ⟨true, h3⟩
        · exact ⟨true, h3⟩
        · exact absurd h1 (hno m hm)
        · cases h3
  obtain ⟨m, hm, he⟩ := hf.took i n fun m hm => by
    obtain ⟨k, hk', hs⟩ := serves hx hk hf m
    obtain ⟨c, hc⟩ := key k (by omega)
    exact ⟨k, hk', by simp [step, hs, hc]⟩
  exact hno m hm he

/-- **C115 (partial).** While the manager serves, every call of `Disconnected` returns. -/
theorem C115_disconnected_partial {σ : Nat → Closing.State} {ev : Nat → Option Closing.Label} (hx : Exec 0 σ ev) (hk : Kept ev)
    (hf : Fair σ ev) {n i : Nat} (h : (σ n).links[i]? = some .leaving) : ∃ m, n ≤ m ∧ ev m = some (.left i) := by
  by_contra hno
  have hno : ∀ m, n ≤ m → ev m ≠ some (.left i) := fun m hm h => hno ⟨m, hm, h⟩
  have key : ∀ m, n ≤ m → (σ m).links[i]? = some .leaving := by
    intro m hm
    induction m, hm using Nat.le_induction with
    | base => exact h
    | succ m hm hc =>
      rcases exec_cases hx m with ⟨_, h2⟩ | ⟨l, h1, h2⟩
      · rw [h2]; exact hc
      · rcases link_step h2 hc with h3 | ⟨_, h3⟩ | ⟨_, h3⟩ | ⟨_, _, h3, _⟩ | ⟨rfl, _⟩
        · exact h3
        · exact h3
        · exact h3
        · cases h3
        · exact absurd h1 (hno m hm)
  obtain ⟨m, hm, he⟩ := hf.left i n fun m hm => by
    obtain ⟨k, hk', hs⟩ := serves hx hk hf m
    exact ⟨k, hk', by simp [step, hs, key k (by omega)]⟩
  exact hno m hm he

namespace Closing

/-- What is left to do for the connections. -/
def cost : Link → Nat
  | .opening _ => 2
  | .leaving => 1
  | _ => 0

def total (s : State) : Nat := (s.links.map cost).sum

theorem sum_set : ∀ (ls : List Link) (i : Nat) (c d : Link), ls[i]? = some c →
    ((ls.set i d).map cost).sum + cost c = (ls.map cost).sum + cost d
  | [], i, c, d, h => by simp at h
  | x :: xs, 0, c, d, h => by simp at h; subst h; simp; omega
  | x :: xs, i + 1, c, d, h => by
    have := sum_set xs i c d (by simpa using h)
    simp only [List.set_cons_succ, List.map_cons, List.sum_cons]; omega

/-- While `Host.Close` waits, only receiving the callbacks changes the connections, and brings the end nearer. -/
theorem waiting_step {s s' : State} {l : Label} (hi : Inv s) (hw : s.close = .waiting) (hs : step s l = some s') :
    s'.close = .returned ∨ (s'.close = .waiting ∧ total s' ≤ total s ∧
      ((∃ i, l = .took i ∨ l = .left i) → total s' < total s)) := by
  have hat := hi.waiting hw
  cases step_tr hs with
  | connect hc => rw [hw] at hc; rcases hc with h | h <;> cases h
  | dropOpening i hg => rcases hat _ (mem_of_get hg) with h | h | h <;> cases h
  | dropUp i hg => rcases hat _ (mem_of_get hg) with h | h | h <;> cases h
  | took i c hm hg =>
    right
    rcases hat _ (mem_of_get hg) with h | h | h <;> cases h
    have := sum_set s.links i (.opening true) .leaving hg
    simp only [cost] at this
    have h2 : total { s with links := s.links.set i .leaving } < total s := by simp only [total]; omega
    exact ⟨hw, Nat.le_of_lt h2, fun _ => h2⟩
  | left i hm hg =>
    right
    have := sum_set s.links i .leaving .gone hg
    simp only [cost] at this
    have h2 : total { s with links := s.links.set i .gone } < total s := by simp only [total]; omega
    exact ⟨hw, Nat.le_of_lt h2, fun _ => h2⟩
  | close hc => rw [hw] at hc; cases hc
  | hostClose hc => rw [hw] at hc; cases hc
  | done => left; rfl
  | _ => right; exact ⟨hw, Nat.le_refl _, fun ⟨i, h⟩ => by rcases h with h | h <;> cases h⟩

/-- `Host.Close` returns. -/
theorem waiting_returns {σ : Nat → State} {ev : Nat → Option Label} (hx : Exec 0 σ ev) (hk : Kept ev) (hf : Fair σ ev) :
    ∀ n, (σ n).close = .waiting → ∃ m, n ≤ m ∧ (σ m).close = .returned := by
  refine leads_to (ev := ev) total (fun s => s.close = .waiting) (fun s => s.close = .returned)
    (fun _ l => ∃ i, l = some (.took i) ∨ l = some (.left i)) (fun n hw _ => ?_) (fun n hn => ?_)
  · rcases exec_cases hx n with ⟨h1, h2⟩ | ⟨l, h1, h2⟩
    · rw [h1, h2]; exact .inr ⟨hw, Nat.le_refl _, fun ⟨i, h⟩ => by rcases h with h | h <;> cases h⟩
    · rcases waiting_step (inv_exec hx n) hw h2 with h | ⟨a, b, c⟩
      · exact .inl h
      · refine .inr ⟨a, b, fun ⟨i, h⟩ => c ⟨i, ?_⟩⟩
        rw [h1] at h; simpa using h
  · by_cases hall : ∃ l ∈ (σ n).links, l ≠ .gone
    · obtain ⟨l, hl, hg⟩ := hall
      obtain ⟨i, hi⟩ := List.getElem?_of_mem hl
      rcases (inv_exec hx n).waiting (hn n (Nat.le_refl n)).1 l hl with rfl | rfl | rfl
      · obtain ⟨m, hm, he⟩ := C115_connected_partial hx hk hf hi
        exact ⟨m, hm, i, .inl he⟩
      · obtain ⟨m, hm, he⟩ := C115_disconnected_partial hx hk hf hi
        exact ⟨m, hm, i, .inr he⟩
      · exact absurd rfl hg
    · have hall : ∀ l ∈ (σ n).links, l = .gone := fun l hl => by
        by_contra h; exact hall ⟨l, hl, h⟩
      have hkeep : ∀ m, n ≤ m → (σ m).close = .waiting ∧ ∀ l ∈ (σ m).links, l = .gone := by
        intro m hm
        refine ⟨(hn m hm).1, ?_⟩
        induction m, hm using Nat.le_induction with
        | base => exact hall
        | succ m hm ih =>
          rcases exec_cases hx m with ⟨_, h2⟩ | ⟨l, h1, h2⟩
          · rw [h2]; exact ih
          · have hw := (hn m hm).1
            generalize σ (m + 1) = s' at h2
            cases step_tr h2 with
            | connect hc => rw [hw] at hc; rcases hc with h | h <;> cases h
            | dropOpening i hg => cases ih _ (mem_of_get hg)
            | dropUp i hg => cases ih _ (mem_of_get hg)
            | took i c _ hg => cases ih _ (mem_of_get hg)
            | left i _ hg => cases ih _ (mem_of_get hg)
            | hostClose hc => rw [hw] at hc; cases hc
            | _ => exact ih
      obtain ⟨m, hm, he⟩ := hf.done n fun m hm => by
        simp only [step, if_pos (hkeep m hm), Option.isSome_some]
      rcases exec_cases hx m with ⟨h1, _⟩ | ⟨l, h1, h2⟩
      · rw [h1] at he; cases he
      · rw [h1] at he; cases he
        have h3 := (hn (m + 1) (by omega)).2
        generalize σ (m + 1) = s' at h2 h3
        cases step_tr h2; exact absurd rfl h3

/-- `Close` gets to `Host.Close`. -/
theorem quiet_waits {k : Nat} {σ : Nat → State} {ev : Nat → Option Label} (hx : Exec k σ ev) (hf : Fair σ ev) (n : Nat)
    (h : (σ n).close = .quiet) : ∃ m, n ≤ m ∧ (σ m).close = .waiting := by
  by_contra hno
  have hno : ∀ m, n ≤ m → (σ m).close ≠ .waiting := fun m hm h => hno ⟨m, hm, h⟩
  have key : ∀ m, n ≤ m → (σ m).close = .quiet := by
    intro m hm
    induction m, hm using Nat.le_induction with
    | base => exact h
    | succ m hm ih =>
      rcases exec_cases hx m with ⟨_, h2⟩ | ⟨l, h1, h2⟩
      · rw [h2]; exact ih
      · have h3 := hno (m + 1) (by omega)
        generalize σ (m + 1) = s' at h2 h3
        cases step_tr h2 with
        | close => rfl
        | hostClose => exact absurd rfl h3
        | done hc => rw [ih] at hc; cases hc
        | _ => exact ih
  obtain ⟨m, hm, he⟩ := hf.hostClose n fun m hm => by simp [step, key m hm]
  rcases exec_cases hx m with ⟨h1, _⟩ | ⟨l, h1, h2⟩
  · rw [h1] at he; cases he
  · rw [h1] at he; cases he
    have h3 := hno (m + 1) (by omega)
    generalize σ (m + 1) = s' at h2 h3
    cases step_tr h2; exact h3 rfl

end Closing

/-- **C115 (partial).** If the manager was started before the first connection, nobody gives up waiting for a reply of the
manager, and the node's context lives, `Close` returns, whatever connections there are and are being made. Missing:
`C115_context_refuted`, `C115_query_refuted`, `C115_started_refuted`. -/
theorem C115_returns_partial {σ : Nat → Closing.State} {ev : Nat → Option Closing.Label} (hx : Exec 0 σ ev) (hk : Kept ev)
    (hf : Fair σ ev) {n : Nat} (h : (σ n).close ≠ .notYet) : ∃ m, n ≤ m ∧ (σ m).close = .returned := by
  cases hc : (σ n).close with
  | notYet => exact absurd hc h
  | quiet =>
    obtain ⟨m, hm, hw⟩ := quiet_waits hx hf n hc
    obtain ⟨k, hk', hr⟩ := waiting_returns hx hk hf m hw
    exact ⟨k, by omega, hr⟩
  | waiting => exact waiting_returns hx hk hf n hc
  | returned => exact ⟨n, Nat.le_refl n, hc⟩

/-- **C115.** When `Close` has returned every connection there has been is closed, and its `Disconnected` has returned. -/
theorem C115_closed {k : Nat} {ls : List Closing.Label} {s : Closing.State} (h : run (init k) ls = some s)
    (hc : s.close = .returned) : ∀ l ∈ s.links, l = .gone := (inv_run (inv_init k) h).returned hc

namespace Closing

/-- How often the two callbacks of connection `i` have been taken, by the connection's state. -/
def Counted (k : Nat) (ls : List Label) (s : State) : Prop :=
  k ≤ s.links.length ∧ ∀ i : Nat, match (s.links[i]? : Option Link) with
    | none => ls.count (.took i) = 0 ∧ ls.count (.left i) = 0
    | some (.opening _) => k ≤ i ∧ ls.count (.took i) = 0 ∧ ls.count (.left i) = 0
    | some .gone => ls.count (.took i) = (if i < k then 0 else 1) ∧ ls.count (.left i) = 1
    | some _ => ls.count (.took i) = (if i < k then 0 else 1) ∧ ls.count (.left i) = 0

theorem counted_init (k : Nat) : Counted k [] (init k) := by
  refine ⟨by simp [init], fun i => ?_⟩
  by_cases h : i < k
  · simp [init, h]
  · simp [init, h]

theorem counted_step {k : Nat} {ls : List Label} {s s' : State} {l : Label} (hi : Counted k ls s) (hs : step s l = some s') :
    Counted k (l :: ls) s' := by
  obtain ⟨hk, hc⟩ := hi
  cases step_tr hs with
  | connect =>
    refine ⟨by simp; omega, fun i => ?_⟩
    have h := hc i
    simp only [List.count_cons]
    rcases Nat.lt_trichotomy i s.links.length with hl | hl | hl
    · rw [List.getElem?_append_left hl]; simpa using h
    · subst hl; simp at h ⊢; exact ⟨hk, h⟩
    · rw [List.getElem?_eq_none (by simp; omega)]
      rw [List.getElem?_eq_none (by omega)] at h; simpa using h
  | dropOpening j hg =>
    refine ⟨by simpa using hk, fun i => ?_⟩
    have h := hc i
    by_cases hj : j = i
    · subst hj
      have hlt := (List.getElem?_eq_some_iff.1 hg).1
      rw [hg] at h; simpa [hlt, List.count_cons] using h
    · simpa [hj, List.count_cons] using h
  | dropUp j hg =>
    refine ⟨by simpa using hk, fun i => ?_⟩
    have h := hc i
    by_cases hj : j = i
    · subst hj
      have hlt := (List.getElem?_eq_some_iff.1 hg).1
      rw [hg] at h; simpa [hlt, List.count_cons] using h
    · simpa [hj, List.count_cons] using h
  | took j c hm hg =>
    refine ⟨by simpa using hk, fun i => ?_⟩
    have h := hc i
    by_cases hj : j = i
    · subst hj
      have hlt := (List.getElem?_eq_some_iff.1 hg).1
      rw [hg] at h
      obtain ⟨h1, h2, h3⟩ := h
      have h4 : ¬ j < k := by omega
      cases c <;> simp [hlt, List.count_cons, h2, h3, h4]
    · simpa [hj, List.count_cons] using h
  | left j hm hg =>
    refine ⟨by simpa using hk, fun i => ?_⟩
    have h := hc i
    by_cases hj : j = i
    · subst hj
      have hlt := (List.getElem?_eq_some_iff.1 hg).1
      rw [hg] at h
      obtain ⟨h1, h2⟩ := h
      simp [hlt, List.count_cons, h1, h2]
    · simpa [hj, List.count_cons] using h
  | hostClose =>
    refine ⟨by simpa using hk, fun i => ?_⟩
    have h := hc i
    simp only [List.getElem?_map]
    cases hg : s.links[i]? with
    | none => rw [hg] at h; simpa [List.count_cons] using h
    | some c => rw [hg] at h; cases c <;> simpa [List.count_cons, Link.shut] using h
  | _ => exact ⟨hk, fun i => by simpa [List.count_cons] using hc i⟩

theorem counted_run {k : Nat} : ∀ (ls pre : List Label) (s s' : State), Counted k pre s → run s ls = some s' →
    Counted k (ls.reverse ++ pre) s'
  | [], pre, s, s', hi, h => by cases h; exact hi
  | l :: ls, pre, s, s', hi, h => by
    simp only [run] at h
    split at h
    · rename_i t ht
      have := counted_run ls (l :: pre) t s' (counted_step hi ht) h
      simpa using this
    · cases h

end Closing

/-- **C115.** The notifications of a connection are taken once each, the second only after the first: of a connection made
after the start both when it is gone, the first when it is up or leaving, none before. -/
theorem C115_once {k i : Nat} {ls : List Closing.Label} {s : Closing.State} (h : run (init k) ls = some s) (hi : k ≤ i) :
    ls.count (.took i) = (if s.links[i]? = some .up ∨ s.links[i]? = some .leaving ∨ s.links[i]? = some .gone then 1 else 0) ∧
    ls.count (.left i) = (if s.links[i]? = some .gone then 1 else 0) := by
  have hc := (counted_run ls [] _ _ (counted_init k) h).2 i
  have hk : ¬ i < k := by omega
  rw [List.append_nil] at hc
  simp only [List.count_reverse, hk, if_false] at hc
  cases hg : s.links[i]? with
  | none => rw [hg] at hc; simpa using hc
  | some c =>
    rw [hg] at hc
    cases c
    case opening b => simpa using hc.2
    all_goals simpa using hc

/-! ### It does not return in other cases -/

namespace Closing

/-- The manager receives nothing any more. -/
inductive Deaf : State → Prop
  | ended {s} : s.mgr = .ended → Deaf s
  | starting {s n} : s.mgr = .starting (n + 1) → Deaf s

theorem deaf_step {s s' : State} {l : Label} (hd : Deaf s) (hs : step s l = some s') : Deaf s' := by
  cases hd with
  | ended hm =>
    cases step_tr hs with
    | spawn h => rw [hm] at h; cases h
    | ask h => rw [hm] at h; cases h
    | answer h => rw [hm] at h; cases h
    | abandon h => rw [hm] at h; cases h
    | skip _ h => rw [hm] at h; cases h
    | finish h => rw [hm] at h; cases h
    | _ => exact .ended hm
  | starting hm =>
    cases step_tr hs with
    | spawn h => rw [hm] at h; cases h
    | ask h => rw [hm] at h; cases h
    | answer h => rw [hm] at h; cases h
    | abandon h => rw [hm] at h; cases h
    | skip _ h => rw [hm] at h; cases h
    | finish h => rw [hm] at h; cases h
    | _ => exact .starting hm

theorem deaf_not_serving {s : State} (h : Deaf s) : s.mgr ≠ .serving := by
  cases h with
  | ended h => rw [h]; exact fun h => by cases h
  | starting h => rw [h]; exact fun h => by cases h

theorem deaf_link {s s' : State} {l : Label} {i : Nat} {c : Link} (hd : Deaf s) (hs : step s l = some s')
    (hc : s.links[i]? = some c) (hg : c ≠ .gone) : ∃ c', s'.links[i]? = some c' ∧ c' ≠ .gone := by
  rcases link_step hs hc with h3 | ⟨_, h3⟩ | ⟨_, h3⟩ | ⟨rfl, _⟩ | ⟨rfl, _⟩
  · exact ⟨c, h3, hg⟩
  · exact ⟨_, h3, by cases c <;> simp_all [Link.shut]⟩
  · exact ⟨_, h3, by cases c <;> simp_all [Link.shut]⟩
  · cases step_tr hs with | took _ _ hm => exact absurd hm (deaf_not_serving hd)
  · cases step_tr hs with | left _ hm => exact absurd hm (deaf_not_serving hd)

theorem never_returns : ∀ {ls : List Label} {s s' : State} {i : Nat} {c : Link}, Inv s → Deaf s → s.links[i]? = some c →
    c ≠ .gone → run s ls = some s' → s'.close ≠ .returned
  | [], s, s', i, c, hi, _, hc, hg, h => by
    cases h
    exact fun hr => hg (hi.returned hr c (mem_of_get hc))
  | l :: ls, s, s', i, c, hi, hd, hc, hg, h => by
    simp only [run] at h
    split at h
    · rename_i t ht
      obtain ⟨c', hc', hg'⟩ := deaf_link hd ht hc hg
      exact never_returns (inv_step hi ht) (deaf_step hd ht) hc' hg' h
    · cases h

end Closing

/-- **C115 (refuted, in every continuation).** Once the manager has ended, or while it waits to announce the connections that
were there before it, with a connection that is not gone, `Close` never returns, whatever happens. -/
theorem C115_never_refuted {k n i : Nat} {before after : List Closing.Label} {s s' : Closing.State} {c : Closing.Link}
    (hr : run (init k) before = some s) (hd : s.mgr = .ended ∨ s.mgr = .starting (n + 1)) (hc : s.links[i]? = some c)
    (hg : c ≠ .gone) (h : run s after = some s') : s'.close ≠ .returned :=
  never_returns (inv_run (inv_init k) hr) (hd.elim .ended .starting) hc hg h

/-- `Close` returns: with `already` connections before the start, and only steps that satisfy `P`. -/
def CloseReturns (already : Nat) (P : Closing.Label → Prop) : Prop :=
  ∀ (σ : Nat → Closing.State) (ev : Nat → Option Closing.Label), Exec already σ ev → Fair σ ev → (∀ n l, ev n = some l → P l) →
    ∀ n, (σ n).close ≠ .notYet → ∃ m, n ≤ m ∧ (σ m).close = .returned

namespace Closing

/-- The states of the run of `ls`, and then for ever the last. -/
def onSt (s : State) : List Label → Nat → State
  | [], _ => s
  | _, 0 => s
  | l :: ls, n + 1 => match step s l with
    | some s' => onSt s' ls n
    | none => s

/-- Everything in `ls` is enabled, and the last state allows none of the fair steps. -/
def goes (s : State) : List Label → Bool
  | [] => (step s .spawn).isNone && (step s .answer).isNone && (step s .hostClose).isNone && (step s .done).isNone &&
      (s.mgr != .serving || s.links.all fun l => l == .gone || l == .up)
  | l :: ls => match step s l with
    | some s' => goes s' ls
    | none => false

theorem onSt_zero (s : State) (ls : List Label) : onSt s ls 0 = s := by cases ls <;> rfl

theorem onSt_step : ∀ (ls : List Label) (s : State), goes s ls = true → ∀ n, match ls[n]? with
    | some l => step (onSt s ls n) l = some (onSt s ls (n + 1))
    | none => onSt s ls (n + 1) = onSt s ls n
  | [], s, _, n => by simp [onSt]
  | l :: ls, s, h, n => by
    simp only [goes] at h
    split at h
    · rename_i t ht
      cases n with
      | zero => simp [onSt, ht, onSt_zero]
      | succ n => simpa [onSt, ht] using onSt_step ls t h n
    · cases h

theorem onSt_end : ∀ (ls : List Label) (s : State), goes s ls = true →
    ∃ t, goes t [] = true ∧ ∀ n, ls.length ≤ n → onSt s ls n = t
  | [], s, h => ⟨s, h, fun n _ => by cases n <;> rfl⟩
  | l :: ls, s, h => by
    simp only [goes] at h
    split at h
    · rename_i t ht
      obtain ⟨u, hu, hn⟩ := onSt_end ls t h
      refine ⟨u, hu, fun n hl => ?_⟩
      cases n with
      | zero => simp at hl
      | succ n => simp only [onSt, ht]; exact hn n (by simpa using hl)
    · cases h

theorem onSt_exec {k : Nat} {ls : List Label} (h : goes (init k) ls = true) :
    Exec k (onSt (init k) ls) (fun n => ls[n]?) := ⟨onSt_zero _ _, onSt_step ls _ h⟩

theorem onSt_fair {s : State} {ls : List Label} (h : goes s ls = true) : Fair (onSt s ls) (fun n => ls[n]?) := by
  obtain ⟨t, ht, hn⟩ := onSt_end ls s h
  simp only [goes, Bool.and_eq_true, Option.isNone_iff_eq_none, Bool.or_eq_true] at ht
  obtain ⟨⟨⟨⟨h1, h2⟩, h3⟩, h4⟩, h5⟩ := ht
  have weak : ∀ l, step t l = none → Weak (onSt s ls) (fun n => ls[n]?) l := by
    intro l hl n hall
    have h := hall (n + ls.length) (by omega)
    rw [hn _ (by omega), hl] at h; cases h
  have strong : ∀ l, step t l = none → Strong (onSt s ls) (fun n => ls[n]?) l := by
    intro l hl n hall
    obtain ⟨k, hk, h⟩ := hall (n + ls.length) (by omega)
    rw [hn _ (by omega), hl] at h; cases h
  refine ⟨weak _ h1, weak _ h2, weak _ h3, weak _ h4, fun i => strong _ ?_, fun i => strong _ ?_⟩
  · rcases h5 with h5 | h5
    · simp only [step]; split
      · rename_i h _; rw [h] at h5; simp at h5
      · rfl
    · simp only [step]; split
      · rename_i h; have := List.all_eq_true.1 h5 _ (mem_of_get h); simp at this
      · rfl
  · rcases h5 with h5 | h5
    · simp only [step]; split
      · rename_i h _; rw [h] at h5; simp at h5
      · rfl
    · simp only [step]; split
      · rename_i h; have := List.all_eq_true.1 h5 _ (mem_of_get h); simp at this
      · rfl

theorem not_returns {k : Nat} {P : Label → Prop} (ls : List Label) (h : goes (init k) ls = true) (hP : ∀ l ∈ ls, P l)
    (h1 : (onSt (init k) ls ls.length).close = .waiting) : ¬ CloseReturns k P := by
  intro hr
  obtain ⟨m, hm, hc⟩ := hr _ _ (onSt_exec h) (onSt_fair h) (fun n l hl => hP l (List.mem_of_getElem? hl)) ls.length
    (by rw [h1]; exact fun h => by cases h)
  obtain ⟨t, _, hn⟩ := onSt_end ls _ h
  rw [hn _ (Nat.le_refl _)] at h1
  rw [hn m hm, h1] at hc; cases hc

end Closing

/-- **C115 (refuted).** The node's context ends, with it the manager, and then `Close` is called: it waits for ever for the
`Disconnected` of the one connection there is. -/
theorem C115_context_refuted : ¬ CloseReturns 0 (fun l => l ≠ .abandon) :=
  not_returns [.spawn, .connect, .took 0, .cancel, .finish, .close, .hostClose] (by decide) (by decide) (by decide)

/-- **C115 (refuted).** A caller gives up waiting for the manager's reply (C61): `Close` waits for ever, the context being
alive. -/
theorem C115_query_refuted : ¬ CloseReturns 0 (fun l => l ≠ .cancel) :=
  not_returns [.spawn, .connect, .took 0, .ask, .abandon, .close, .hostClose] (by decide) (by decide) (by decide)

/-- **C115 (refuted).** A connection was there before the manager was started (C36): `Close` waits for ever. -/
theorem C115_started_refuted : ¬ CloseReturns 1 (fun l => l ≠ .cancel ∧ l ≠ .abandon) :=
  not_returns [.close, .hostClose] (by decide) (by decide) (by decide)

/-! ### Examples -/

namespace Closing
/-- A connection is made, a second one is being made when the node is closed, a third has gone before. -/
def demo : List Label :=
  [.connect, .spawn, .took 0, .connect, .took 1, .drop 1, .left 1, .ask, .answer, .connect, .close, .hostClose, .left 0,
    .took 2, .left 2, .done]
end Closing

/-- The hypotheses of `C115_returns_partial` can be met by an execution with three connections. -/
example : Exec 0 (onSt (init 0) demo) (fun n => demo[n]?) ∧ Kept (fun n => demo[n]?) ∧
    Fair (onSt (init 0) demo) (fun n => demo[n]?) ∧ (onSt (init 0) demo 11).close = .quiet ∧
    (onSt (init 0) demo 12).links = [.leaving, .gone, .opening true] ∧ (onSt (init 0) demo 16).close = .returned := by
  refine ⟨onSt_exec (by decide), fun n => ?_, onSt_fair (by decide), by decide, by decide, by decide⟩
  have h : ∀ l ∈ demo, l ≠ .abandon ∧ l ≠ .cancel := by decide
  exact ⟨fun he => (h _ (List.mem_of_getElem? he)).1 rfl, fun he => (h _ (List.mem_of_getElem? he)).2 rfl⟩

/-- Those of `C115_once` and `C115_closed`. -/
example : ∃ s, run (init 0) demo = some s ∧ s.close = .returned ∧ demo.count (.left 1) = 1 := ⟨_, rfl, rfl, by decide⟩

/-- Those of `C115_never_refuted`: a reachable state, for both reasons. -/
example : ∃ s, run (init 0) [.spawn, .connect, .took 0, .cancel, .finish] = some s ∧ s.mgr = .ended ∧ s.links[0]? = some .up :=
  ⟨_, rfl, rfl, rfl⟩

example : (init 2).mgr = .starting (1 + 1) ∧ (init 2).links[1]? = some .up := ⟨rfl, rfl⟩

end KP2P

import Verif.Proof.Fair
import Verif.Proof.Session
import Verif.Spec.SessionEnd
/-!
# C109: a cancelled session ends soon
-/

namespace KP2P
open KP2P.PeerConn KP2P.Session KP2P.Spec.Ending

private theorem esplit {o : Opts} {s s' : Ending.State} {l : Session.Label} (h : Ending.step o s l = some s') :
    (Ending.isTimer l && s.late) = false ∧ Session.step o s.st l = some s'.st ∧
      s'.late = if s'.st.phase = s.st.phase then s.late else s'.st.cancelled := by
  unfold Ending.step at h
  split at h
  · cases h
  · rename_i ht
    split at h
    · cases h
    · rename_i st hst
      cases h
      exact ⟨by simpa using ht, hst, rfl⟩

private theorem end_ind {o : Opts} {P : Ending.State → Prop} (hstep : ∀ s l s', P s → Ending.step o s l = some s' → P s') :
    ∀ (ls : List Session.Label) (s s' : Ending.State), P s → Ending.run o s ls = some s' → P s' := by
  intro ls
  induction ls with
  | nil => intro s s' h hr; cases hr; exact h
  | cons l ls ih =>
    intro s s' h hr
    simp only [Ending.run] at hr
    split at hr
    · rename_i s1 h1; exact ih s1 s' (hstep s l s1 h h1) hr
    · cases hr

/-- Handshakes still possible once the context is done. -/
private def moreH (s : Ending.State) : Nat :=
  match s.st.phase with
  | .handshake => 1
  | .retryWait => if s.late then 0 else 1
  | _ => 0

/-- Rounds still possible once the context is done. -/
private def moreR (s : Ending.State) : Nat :=
  match s.st.phase with
  | .handshake => 1
  | .retryWait => if s.late then 0 else 1
  | .sync => 1
  | .sleeping _ => if s.late then 0 else 1
  | _ => 0

private theorem more_le (s : Ending.State) : moreH s ≤ 1 ∧ moreR s ≤ 1 := by
  constructor
  · unfold moreH; split <;> (try split) <;> omega
  · unfold moreR; split <;> (try split) <;> omega

/-- What a step of a session with a cancelled context does to what is still possible. -/
private theorem more_step {o : Opts} {s s' : Ending.State} {l : Session.Label} (h : Ending.step o s l = some s')
    (hc : s.st.cancelled = true) :
    s'.st.cancelled = true ∧ ((∃ new, s'.st.log = new ++ s.st.log ∧ handshakes new + moreH s' ≤ moreH s ∧
      rounds new + moreR s' ≤ moreR s ∧ (Session.Ev.cancel ∈ new → new = [.cancel]))) := by
  obtain ⟨ht, hs, hl⟩ := esplit h
  cases s with | mk st late =>
  cases s' with | mk st' late' =>
  dsimp only at ht hs hl hc ⊢
  cases l <;> simp only [Session.step] at hs
  case handshake e =>
    split at hs
    · rename_i hp
      split at hs
      · cases hs
        refine ⟨hc, [_], rfl, ?_, ?_, by simp⟩ <;> simp [moreH, moreR, hp, handshakes, rounds]
      · cases hs
        simp only [hp, hc] at hl
        refine ⟨hc, [_], rfl, ?_, ?_, by simp⟩ <;> simp_all [moreH, moreR, handshakes, rounds]
    · cases hs
  case retryTimer =>
    split at hs
    · rename_i hp
      cases hs
      have : late = false := by simpa [Ending.isTimer] using ht
      refine ⟨hc, [], rfl, ?_, ?_, by simp⟩ <;> simp [moreH, moreR, hp, handshakes, rounds, this]
    · cases hs
  case round e =>
    split at hs
    · rename_i hp
      split at hs
      · cases hs
        simp only [hp, hc] at hl
        refine ⟨hc, [_], rfl, ?_, ?_, by simp⟩ <;> simp_all [moreH, moreR, handshakes, rounds]
      · cases hs
        refine ⟨hc, [_], rfl, ?_, ?_, by simp⟩ <;> simp [moreH, moreR, hp, handshakes, rounds]
      · cases hs
        refine ⟨hc, [_], rfl, ?_, ?_, by simp⟩ <;> simp [moreH, moreR, hp, handshakes, rounds]
    · cases hs
  case report =>
    split at hs
    · rename_i e hp
      cases hs
      simp only [hp, hc] at hl
      refine ⟨hc, [_], rfl, ?_, ?_, by simp⟩ <;> simp_all [moreH, moreR, handshakes, rounds]
    · cases hs
  case sleepTimer =>
    split at hs
    · rename_i b hp
      cases hs
      have : late = false := by simpa [Ending.isTimer] using ht
      refine ⟨hc, [], rfl, ?_, ?_, by simp⟩ <;> simp [moreH, moreR, hp, handshakes, rounds, this]
    · cases hs
  case seeDone =>
    rw [if_pos hc] at hs
    split at hs
    · cases hs; exact ⟨hc, [], rfl, by simp [moreH, handshakes], by simp [moreR, rounds], by simp⟩
    · cases hs; exact ⟨hc, [], rfl, by simp [moreH, handshakes], by simp [moreR, rounds], by simp⟩
    · cases hs; exact ⟨hc, [_], rfl, by simp [moreH, handshakes], by simp [moreR, rounds], by simp⟩
    · cases hs
  case deliver i =>
    split at hs
    · cases hs
      simp only [if_true] at hl
      subst hl
      exact ⟨hc, [_], rfl, by simp [moreH, handshakes], by simp [moreR, rounds], by simp⟩
    · cases hs
  case giveUp i =>
    rw [if_pos hc] at hs
    split at hs
    · cases hs
      simp only [if_true] at hl
      subst hl
      exact ⟨hc, [_], rfl, by simp [moreH, handshakes], by simp [moreR, rounds], by simp⟩
    · cases hs
  case cancel =>
    cases hs
    simp only [if_true] at hl
    subst hl
    exact ⟨rfl, [_], rfl, by simp [moreH, handshakes], by simp [moreR, rounds], by simp⟩

/-- C109. After the context of a session is cancelled at most one handshake and at most one round take place: those under
way at that moment, or begun because a timer fired in the same instant. -/
theorem C109_at_most_one_more (o : Opts) (s s' : Ending.State) (ls : List Session.Label) (hc : s.st.cancelled = true)
    (hr : Ending.run o s ls = some s') :
    s'.st.cancelled = true ∧ handshakes s'.st.log ≤ handshakes s.st.log + 1 ∧ rounds s'.st.log ≤ rounds s.st.log + 1 := by
  have := end_ind (o := o) (P := fun x => x.st.cancelled = true ∧
      handshakes x.st.log + moreH x ≤ handshakes s.st.log + moreH s ∧ rounds x.st.log + moreR x ≤ rounds s.st.log + moreR s)
    ?_ ls s s' ⟨hc, Nat.le_refl _, Nat.le_refl _⟩ hr
  · have h1 := more_le s
    exact ⟨this.1, by omega, by omega⟩
  · rintro x l x' ⟨h1, h2, h3⟩ hs
    obtain ⟨a, new, hlog, b, c, _⟩ := more_step hs h1
    refine ⟨a, ?_, ?_⟩
    · rw [hlog]; simp only [handshakes, List.countP_append] at *; omega
    · rw [hlog]; simp only [rounds, List.countP_append] at *; omega

/-- C109. The context of a session is cancelled from the moment of the call on. -/
theorem C109_cancel_heard (o : Opts) (s s' : Ending.State) (ls : List Session.Label) (hl : Session.Label.cancel ∈ ls)
    (hr : Ending.run o s ls = some s') : s'.st.cancelled = true := by
  obtain ⟨a, b, rfl⟩ := List.append_of_mem hl
  have happ : ∀ (a b : List Session.Label) (s : Ending.State), Ending.run o s (a ++ b) =
      (Ending.run o s a).bind fun t => Ending.run o t b := by
    intro a b
    induction a with
    | nil => intro s; rfl
    | cons l a ih =>
      intro s
      simp only [List.cons_append, Ending.run]
      cases Ending.step o s l with
      | none => rfl
      | some t => exact ih t
  rw [happ] at hr
  cases h1 : Ending.run o s a with
  | none => rw [h1] at hr; cases hr
  | some t =>
    rw [h1] at hr
    simp only [Option.bind_some, Ending.run] at hr
    split at hr
    · rename_i t' ht
      have : t'.st.cancelled = true := by
        obtain ⟨_, hs, _⟩ := esplit ht
        simp only [Session.step] at hs
        rw [← Option.some.inj hs]
      exact (C109_at_most_one_more o t' s' b this hr).1
    · cases hr

/-- How far the goroutine of a cancelled session is from its end. -/
private def toGo (s : Ending.State) : Nat :=
  match s.st.phase with
  | .handshake => 4
  | .retryWait => if s.late then 1 else 5
  | .sync => 3
  | .reporting _ => 2
  | .sleeping _ => if s.late then 1 else 4
  | .ended => 0
  | .crashed => 0

private theorem go_step {o : Opts} {s s' : Ending.State} {l : Session.Label} (h : Ending.step o s l = some s')
    (hc : s.st.cancelled = true) : toGo s' ≤ toGo s ∧ (Own l → toGo s' < toGo s) := by
  obtain ⟨ht, hs, hl⟩ := esplit h
  cases s with | mk st late =>
  cases s' with | mk st' late' =>
  dsimp only at ht hs hl hc ⊢
  cases l <;> simp only [Session.step] at hs
  case handshake e =>
    split at hs
    · rename_i hp
      split at hs
      · cases hs; simp [toGo, hp]
      · cases hs
        simp only [hp, hc] at hl
        simp_all [toGo]
    · cases hs
  case retryTimer =>
    split at hs
    · rename_i hp
      cases hs
      have : late = false := by simpa [Ending.isTimer] using ht
      simp [toGo, hp, this]
    · cases hs
  case round e =>
    split at hs
    · rename_i hp
      split at hs
      · cases hs
        simp only [hp, hc] at hl
        simp_all [toGo]
      · cases hs; simp [toGo, hp]
      · cases hs; simp [toGo, hp]
    · cases hs
  case report =>
    split at hs
    · rename_i e hp
      cases hs
      simp only [hp, hc] at hl
      simp_all [toGo]
    · cases hs
  case sleepTimer =>
    split at hs
    · rename_i b hp
      cases hs
      have : late = false := by simpa [Ending.isTimer] using ht
      simp [toGo, hp, this]
    · cases hs
  case seeDone =>
    rw [if_pos hc] at hs
    split at hs
    · rename_i hp; cases hs; simp only [toGo, hp]; constructor <;> intros <;> split <;> omega
    · rename_i hp; cases hs; simp only [toGo, hp]; constructor <;> intros <;> split <;> omega
    · rename_i hp; cases hs; simp [toGo, hp]
    · cases hs
  case deliver i =>
    split at hs
    · cases hs
      simp only [if_true] at hl
      subst hl
      simp [toGo, Own]
    · cases hs
  case giveUp i =>
    rw [if_pos hc] at hs
    split at hs
    · cases hs
      simp only [if_true] at hl
      subst hl
      simp [toGo, Own]
    · cases hs
  case cancel =>
    cases hs
    simp only [if_true] at hl
    subst hl
    simp [toGo, Own]

private def anyHs : HsEnv := ⟨.error (.other 0), .error (.other 0), .error (.other 0), .error (.other 0), fun _ _ _ => .error (.other 0)⟩
private def anyRound : SyncEnv :=
  ⟨⟨[], 0⟩, .error (.other 0), fun _ => .ok [], fun _ _ => .ok [], fun _ _ _ => .ok [], fun _ _ => none⟩

private theorem own_enabled {o : Opts} {s : Ending.State} (hc : s.st.cancelled = true) (hn : ¬ Over s.st) :
    ∃ l, Own l ∧ (Ending.step o s l).isSome = true := by
  have lift : ∀ l, Ending.isTimer l = false → (Session.step o s.st l).isSome = true → (Ending.step o s l).isSome = true := by
    intro l h1 h2
    unfold Ending.step
    rw [h1]
    simp only [Bool.false_and, Bool.false_eq_true, if_false]
    cases h : Session.step o s.st l with
    | none => rw [h] at h2; cases h2
    | some _ => rfl
  cases hp : s.st.phase with
  | handshake =>
    refine ⟨.handshake anyHs, trivial, lift _ rfl ?_⟩
    simp only [Session.step, hp, if_true]
    split <;> rfl
  | retryWait => exact ⟨.seeDone, trivial, lift _ rfl (by simp [Session.step, hp, hc])⟩
  | sync =>
    refine ⟨.round anyRound, trivial, lift _ rfl ?_⟩
    simp only [Session.step, hp, if_true]
    split <;> rfl
  | reporting e => exact ⟨.seeDone, trivial, lift _ rfl (by simp [Session.step, hp, hc])⟩
  | sleeping b => exact ⟨.seeDone, trivial, lift _ rfl (by simp [Session.step, hp, hc])⟩
  | ended => exact absurd (Or.inl hp) hn
  | crashed => exact absurd (Or.inr hp) hn

private theorem cancelled_stays {o : Opts} {σ : Nat → Ending.State} {ev : Nat → Session.Label} (h : Exec o σ ev) (n d : Nat)
    (hc : (σ n).st.cancelled = true) : (σ (n + d)).st.cancelled = true := by
  induction d with
  | zero => exact hc
  | succ d ih => exact (more_step (h (n + d)) ih).1

/-- C109. In every infinite execution in which the goroutine of a cancelled session is not held up for ever, it ends. -/
theorem C109_ends {o : Opts} {σ : Nat → Ending.State} {ev : Nat → Session.Label} (h : Exec o σ ev) (hf : FairOwn o σ ev)
    (n : Nat) (hc : (σ n).st.cancelled = true) : ∃ m, n ≤ m ∧ Over (σ m).st := by
  refine leads_to (σ := σ) (ev := ev) toGo (fun s => s.st.cancelled = true) (fun s => Over s.st) (fun _ l => Own l) ?_ ?_ n hc
  · intro k hk _
    have h1 := go_step (h k) hk
    exact Or.inr ⟨(more_step (h k) hk).1, h1.1, h1.2⟩
  · intro k hall
    exact hf k fun m hm => own_enabled (hall m hm).1 (hall m hm).2

private theorem over_step {o : Opts} {s s' : Ending.State} {l : Session.Label} (h : Ending.step o s l = some s')
    (ho : Over s.st) : Over s'.st ∧ s'.st.reporters.length ≤ s.st.reporters.length ∧
      (OfReporter l → s'.st.reporters.length < s.st.reporters.length) := by
  obtain ⟨ht, hs, hl⟩ := esplit h
  clear ht hl
  have hlen : ∀ i (e : Err), s.st.reporters[i]? = some e → (s.st.reporters.eraseIdx i).length < s.st.reporters.length := by
    intro i e hi
    have := (List.getElem?_eq_some_iff.1 hi).1
    rw [List.length_eraseIdx_of_lt this]
    omega
  cases l <;> simp only [Session.step] at hs
  case handshake e => rcases ho with ho | ho <;> simp [ho] at hs
  case retryTimer => rcases ho with ho | ho <;> simp [ho] at hs
  case round e => rcases ho with ho | ho <;> simp [ho] at hs
  case report => rcases ho with ho | ho <;> simp [ho] at hs
  case sleepTimer => rcases ho with ho | ho <;> simp [ho] at hs
  case seeDone => rcases ho with ho | ho <;> simp [ho] at hs
  case deliver i =>
    split at hs
    · rename_i e hi
      have := hlen i e hi
      rw [← Option.some.inj hs]
      exact ⟨ho, Nat.le_of_lt this, fun _ => this⟩
    · cases hs
  case giveUp i =>
    split at hs
    · split at hs
      · rename_i e hi
        have := hlen i e hi
        rw [← Option.some.inj hs]
        exact ⟨ho, Nat.le_of_lt this, fun _ => this⟩
      · cases hs
    · cases hs
  case cancel =>
    rw [← Option.some.inj hs]
    exact ⟨ho, Nat.le_refl _, fun h => h.elim⟩

/-- C109. Nothing of a cancelled session is left in the end: its goroutine has returned (or the process is gone), and so have
the goroutines that report its failed handshakes. -/
theorem C109_nothing_left {o : Opts} {σ : Nat → Ending.State} {ev : Nat → Session.Label} (h : Exec o σ ev)
    (hf : FairOwn o σ ev) (hf2 : FairReporters o σ ev) (n : Nat) (hc : (σ n).st.cancelled = true) :
    ∃ m, n ≤ m ∧ Over (σ m).st ∧ (σ m).st.reporters = [] := by
  obtain ⟨k, hk, ho⟩ := C109_ends h hf n hc
  have hck : (σ k).st.cancelled = true := by
    obtain ⟨d, rfl⟩ := Nat.exists_eq_add_of_le hk
    exact cancelled_stays h n d hc
  obtain ⟨m, hm, h1, h2⟩ := leads_to (σ := σ) (ev := ev) (fun s => s.st.reporters.length)
    (fun s => s.st.cancelled = true ∧ Over s.st) (fun s => Over s.st ∧ s.st.reporters = []) (fun _ l => OfReporter l)
    (fun j hj _ => by
      obtain ⟨a, b, c⟩ := over_step (h j) hj.2
      exact Or.inr ⟨⟨(more_step (h j) hj.1).1, a⟩, b, c⟩)
    (fun j hall => by
      refine hf2 j fun m hm => ?_
      obtain ⟨⟨h1, h2⟩, h3⟩ := hall m hm
      cases hr : (σ m).st.reporters with
      | nil => exact absurd ⟨h2, hr⟩ h3
      | cons e es => exact ⟨.giveUp 0, trivial, by simp [Ending.step, Ending.isTimer, Session.step, h1, hr]⟩) k ⟨hck, ho⟩
  exact ⟨m, by omega, h1, h2⟩

/-! A session with a failed handshake, cancelled while it waits for the next attempt; the timer fires all the same. -/

private def eevs : List Session.Label := [.handshake anyHs, .cancel, .retryTimer, .handshake anyHs, .giveUp 0, .giveUp 0, .seeDone]

example : ∃ s, Ending.run .default Ending.init eevs = some s ∧ s.st.phase = .ended ∧ s.st.reporters = [] ∧
    handshakes s.st.log = 2 := ⟨_, rfl, rfl, rfl, rfl⟩

/- Once more the timer cannot fire. -/
example : Ending.run .default Ending.init [.handshake anyHs, .cancel, .retryTimer, .handshake anyHs, .retryTimer] = none := rfl

private def eev (n : Nat) : Session.Label := (eevs[n]?).getD .cancel
private def est : Nat → Ending.State
  | 0 => Ending.init
  | n + 1 => (Ending.step .default (est n) (eev n)).getD Ending.init

private theorem est_late (d : Nat) : (est (7 + d)).st.phase = .ended ∧ (est (7 + d)).st.reporters = [] := by
  induction d with
  | zero => exact ⟨rfl, rfl⟩
  | succ d ih =>
    have he : eev (7 + d) = .cancel := by simp [eev, eevs]
    have : est (7 + (d + 1)) = (Ending.step .default (est (7 + d)) (eev (7 + d))).getD Ending.init := rfl
    rw [this, he]
    simp only [Ending.step, Ending.isTimer, Bool.false_and, Bool.false_eq_true, if_false, Session.step, Option.getD_some]
    exact ih

example : Exec .default est eev ∧ FairOwn .default est eev ∧ FairReporters .default est eev ∧
    (est 2).st.cancelled = true := by
  have stay : ∀ l, (Own l ∨ OfReporter l) → ∀ d, (Ending.step .default (est (7 + d)) l).isSome = false := by
    intro l hl d
    obtain ⟨h1, h2⟩ := est_late d
    rcases hl with hl | hl <;> cases l <;> simp_all [Own, OfReporter, Ending.step, Session.step]
  refine ⟨fun n => ?_, fun n hall => ?_, fun n hall => ?_, rfl⟩
  · by_cases hn : n < 7
    · match n, hn with
      | 0, _ => rfl
      | 1, _ => rfl
      | 2, _ => rfl
      | 3, _ => rfl
      | 4, _ => rfl
      | 5, _ => rfl
      | 6, _ => rfl
    · obtain ⟨d, rfl⟩ := Nat.exists_eq_add_of_le (Nat.le_of_not_lt hn)
      have he : eev (7 + d) = .cancel := by simp [eev, eevs]
      have : est (7 + d + 1) = (Ending.step .default (est (7 + d)) (eev (7 + d))).getD Ending.init := rfl
      rw [this, he]
      simp [Ending.step, Ending.isTimer, Session.step]
  · obtain ⟨l, hl, he⟩ := hall (7 + n) (by omega)
    rw [stay l (Or.inl hl)] at he; cases he
  · obtain ⟨l, hl, he⟩ := hall (7 + n) (by omega)
    rw [stay l (Or.inr hl)] at he; cases he

end KP2P

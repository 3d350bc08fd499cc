import Verif.Model.Pacing
import Verif.Proof.Session
import Mathlib.Tactic.Linarith
/-!
# C82: how often a session bothers the peer and the chain
-/

namespace KP2P
open KP2P.Pacing KP2P.PeerConn

/-- The pause due after a handshake or a round. -/
def pauseAfter (tm : Times) (x : Stamp) : Time :=
  match x.what with
  | .handshake _ (some _) => tm.retry
  | .round _ _ => if x.synced then tm.syncedSleep else second
  | _ => 0

/-- Invariant: what the latest stamp says about the phase and the timer. -/
private def Inv (tm : Times) (s : Pacing.State) : Prop :=
  (∀ x ∈ s.stamps.head?, x.at_ ≤ s.now) ∧
  (∀ x ∈ s.stamps, (∃ c e, x.what = .handshake c e) ∨ ∃ c r, x.what = .round c r) ∧
  (match s.st.phase with
    | .retryWait => ∃ x rest, s.stamps = x :: rest ∧ x.at_ + pauseAfter tm x ≤ s.due
    | .sleeping b => b = s.st.synced ∧ ∃ x rest, s.stamps = x :: rest ∧ x.at_ + pauseAfter tm x ≤ s.due
    | .reporting _ => ∃ x rest c r, s.stamps = x :: rest ∧ x.what = .round c r ∧ x.synced = s.st.synced
    | .handshake => ∀ x ∈ s.stamps.head?, x.at_ + pauseAfter tm x ≤ s.now
    | .sync => ∀ x ∈ s.stamps.head?, x.at_ + pauseAfter tm x ≤ s.now
    | _ => True) ∧
  (∀ post a b pre, s.stamps = post ++ b :: a :: pre → a.at_ + pauseAfter tm a ≤ b.at_)

private theorem chain_cons {tm : Times} {l : List Stamp} {x : Stamp} (hx : ∀ y ∈ l.head?, y.at_ + pauseAfter tm y ≤ x.at_)
    (h : ∀ post a b pre, l = post ++ b :: a :: pre → a.at_ + pauseAfter tm a ≤ b.at_) :
    ∀ post a b pre, x :: l = post ++ b :: a :: pre → a.at_ + pauseAfter tm a ≤ b.at_ := by
  intro post a b pre he
  cases post with
  | nil =>
    simp only [List.nil_append, List.cons.injEq] at he
    obtain ⟨rfl, rfl⟩ := he
    exact hx a rfl
  | cons p post =>
    simp only [List.cons_append, List.cons.injEq] at he
    exact h post a b pre he.2

private theorem inv_step {o : Opts} {tm : Times} (s s' : Pacing.State) (l : Pacing.Label)
    (hi : Inv tm s) (hs : Pacing.step o tm s l = some s') : Inv tm s' := by
  obtain ⟨h1, h2, h3, h4⟩ := hi
  cases l with
  | tick d =>
    cases hs
    have hd : (0 : Int) ≤ d := by omega
    refine ⟨fun x hx => by have := h1 x hx; dsimp only; omega, h2, ?_, h4⟩
    dsimp only
    split <;> simp_all
    · intro x hx; have := h3 x hx; omega
    · intro x hx; have := h3 x hx; omega
  | act l =>
    simp only [Pacing.step] at hs
    split at hs
    · cases hs
    rename_i hg
    split at hs
    · cases hs
    rename_i st hst
    cases hs
    cases l with
    | handshake e =>
      simp only [Session.step] at hst
      split at hst
      · rename_i hp
        rw [hp] at h3
        simp only at h3
        split at hst
        · rename_i hr
          cases hst
          refine ⟨?_, ?_, ?_, ?_⟩
          · simp [stamp]
          · simp only [stamp, List.head?_cons, Option.map_some, Option.toList_some, List.cons_append, List.nil_append]
            intro x hx
            rcases List.mem_cons.1 hx with rfl | hx
            · exact Or.inl ⟨_, _, rfl⟩
            · exact h2 x hx
          · simp [stamp, pauseAfter]
          · simp only [stamp, List.head?_cons, Option.map_some, Option.toList_some, List.cons_append, List.nil_append]
            exact chain_cons h3 h4
        · rename_i err hr
          cases hst
          refine ⟨?_, ?_, ?_, ?_⟩
          · simp [stamp]
          · simp only [stamp, List.head?_cons, Option.map_some, Option.toList_some, List.cons_append, List.nil_append]
            intro x hx
            rcases List.mem_cons.1 hx with rfl | hx
            · exact Or.inl ⟨_, _, rfl⟩
            · exact h2 x hx
          · refine ⟨_, _, rfl, ?_⟩
            simp [pauseAfter, timer, hp]
          · simp only [stamp, List.head?_cons, Option.map_some, Option.toList_some, List.cons_append, List.nil_append]
            exact chain_cons h3 h4
      · cases hst
    | retryTimer =>
      simp only [Session.step] at hst
      split at hst
      · rename_i hp
        cases hst
        rw [hp] at h3
        obtain ⟨x, rest, hx, hdue⟩ := h3
        simp only [isTimer, Bool.true_and, decide_eq_true_eq, Int.not_lt] at hg
        refine ⟨h1, h2, ?_, h4⟩
        simp only [stamp, List.nil_append, hx]
        intro y hy
        cases hy
        omega
      · cases hst
    | round e =>
      simp only [Session.step] at hst
      split at hst
      · rename_i hp
        rw [hp] at h3
        simp only at h3
        have hstep : ∀ (ph : Session.Phase) (r : SyncResult), ∃ x, stamp s.now (.round e)
            { s.st with phase := ph, synced := r.synced, log := .round r.calls r.out :: s.st.log } = [x] ∧
            x = ⟨s.now, .round r.calls r.out, r.synced⟩ := fun _ _ => ⟨_, rfl, rfl⟩
        split at hst <;> cases hst
        · rename_i hr
          refine ⟨?_, ?_, ?_, ?_⟩
          · simp [stamp]
          · simp only [stamp, List.head?_cons, Option.map_some, Option.toList_some, List.cons_append, List.nil_append]
            intro x hx
            rcases List.mem_cons.1 hx with rfl | hx
            · exact Or.inr ⟨_, _, rfl⟩
            · exact h2 x hx
          · refine ⟨rfl, _, _, rfl, ?_⟩
            simp [pauseAfter, timer, hp]
          · simp only [stamp, List.head?_cons, Option.map_some, Option.toList_some, List.cons_append, List.nil_append]
            exact chain_cons h3 h4
        · rename_i err hr
          refine ⟨?_, ?_, ?_, ?_⟩
          · simp [stamp]
          · simp only [stamp, List.head?_cons, Option.map_some, Option.toList_some, List.cons_append, List.nil_append]
            intro x hx
            rcases List.mem_cons.1 hx with rfl | hx
            · exact Or.inr ⟨_, _, rfl⟩
            · exact h2 x hx
          · exact ⟨_, _, _, _, rfl, rfl, rfl⟩
          · simp only [stamp, List.head?_cons, Option.map_some, Option.toList_some, List.cons_append, List.nil_append]
            exact chain_cons h3 h4
        · rename_i hr
          refine ⟨?_, ?_, trivial, ?_⟩
          · simp [stamp]
          · simp only [stamp, List.head?_cons, Option.map_some, Option.toList_some, List.cons_append, List.nil_append]
            intro x hx
            rcases List.mem_cons.1 hx with rfl | hx
            · exact Or.inr ⟨_, _, rfl⟩
            · exact h2 x hx
          · simp only [stamp, List.head?_cons, Option.map_some, Option.toList_some, List.cons_append, List.nil_append]
            exact chain_cons h3 h4
      · cases hst
    | report =>
      simp only [Session.step] at hst
      split at hst
      · rename_i e hp
        cases hst
        rw [hp] at h3
        obtain ⟨x, rest, c, r, hx, hw, hsy⟩ := h3
        refine ⟨h1, h2, ⟨rfl, x, rest, hx, ?_⟩, h4⟩
        have h1x := h1 x (by rw [hx]; rfl)
        simp only [pauseAfter, hw, timer, hp, reduceCtorEq, if_false, hsy]
        omega
      · cases hst
    | sleepTimer =>
      simp only [Session.step] at hst
      split at hst
      · rename_i b hp
        cases hst
        rw [hp] at h3
        obtain ⟨_, x, rest, hx, hdue⟩ := h3
        simp only [isTimer, Bool.true_and, decide_eq_true_eq, Int.not_lt] at hg
        refine ⟨h1, h2, ?_, h4⟩
        simp only [stamp, List.nil_append, hx]
        intro y hy
        cases hy
        omega
      · cases hst
    | seeDone =>
      simp only [Session.step] at hst
      split at hst
      · split at hst <;> cases hst <;> exact ⟨h1, h2, trivial, h4⟩
      · cases hst
    | deliver i =>
      simp only [Session.step] at hst
      split at hst
      · cases hst
        refine ⟨h1, h2, ?_, h4⟩
        simpa [timer, stamp] using h3
      · cases hst
    | giveUp i =>
      simp only [Session.step] at hst
      split at hst
      · split at hst
        · cases hst
          refine ⟨h1, h2, ?_, h4⟩
          simpa [timer, stamp] using h3
        · cases hst
      · cases hst
    | cancel =>
      cases hst
      refine ⟨h1, h2, ?_, h4⟩
      simpa [timer, stamp] using h3

private theorem run_ind' {o : Opts} {tm : Times} {P : Pacing.State → Prop}
    (hstep : ∀ s l s', P s → Pacing.step o tm s l = some s' → P s') :
    ∀ (ls : List Pacing.Label) (s s' : Pacing.State), P s → Pacing.run o tm s ls = some s' → P s' := by
  intro ls
  induction ls with
  | nil => intro s s' h hr; cases hr; exact h
  | cons l ls ih =>
    intro s s' h hr
    simp only [Pacing.run] at hr
    split at hr
    · rename_i s1 h1; exact ih s1 s' (hstep s l s1 h h1) hr
    · cases hr

private theorem inv_reach {o : Opts} {tm : Times} {s : Pacing.State} (h : Pacing.Reachable o tm s) : Inv tm s := by
  obtain ⟨t, ls, hr⟩ := h
  refine run_ind' (fun s l s' hi hs => inv_step s s' l hi hs) ls (Pacing.init t) s ?_ hr
  exact ⟨by simp [Pacing.init], by simp [Pacing.init], by simp [Pacing.init, Session.init], by simp [Pacing.init]⟩

/-- C82. Of two successive attempts (handshakes or rounds) the later one comes at least the pause after the earlier one:
the retry time after a failed handshake, the long sleep after a round that leaves the session synced, one second after
any other round. -/
theorem C82_pause (o : Opts) (tm : Times) (s : Pacing.State) (h : Pacing.Reachable o tm s) (post pre : List Stamp)
    (a b : Stamp) (he : s.stamps = post ++ b :: a :: pre) : a.at_ + pauseAfter tm a ≤ b.at_ :=
  (inv_reach h).2.2.2 post a b pre he

/-- C82. The sleeping time is the long one iff the session is synced. -/
theorem C82_sleep_by_status (o : Opts) (tm : Times) (s : Pacing.State) (h : Pacing.Reachable o tm s) (long : Bool)
    (hp : s.st.phase = .sleeping long) : long = s.st.synced := by
  have := (inv_reach h).2.2.1
  rw [hp] at this
  exact this.1

/-- The shortest pause after a round or a failed handshake. -/
def shortest (tm : Times) : Time := min tm.retry (min tm.syncedSleep second)

/-- The attempts after which a pause is due: everything but a successful handshake. -/
def pauses (x : Stamp) : Bool :=
  match x.what with
  | .handshake _ none => false
  | _ => true

private theorem pause_nonneg {tm : Times} (hm : 0 ≤ shortest tm) (y : Stamp) : 0 ≤ pauseAfter tm y := by
  have h1 : shortest tm ≤ tm.retry := min_le_left _ _
  have h2 : shortest tm ≤ tm.syncedSleep := le_trans (min_le_right _ _) (min_le_left _ _)
  have h3 : (0 : Int) ≤ second := by decide
  unfold pauseAfter
  split
  · omega
  · split <;> omega
  · exact le_refl _

private theorem pairwise_of_chain (tm : Times) (hm : 0 ≤ shortest tm) :
    ∀ l : List Stamp, (∀ post a b pre, l = post ++ b :: a :: pre → a.at_ + pauseAfter tm a ≤ b.at_) →
      l.Pairwise fun b a => a.at_ + pauseAfter tm a ≤ b.at_ := by
  intro l
  induction l with
  | nil => intro _; exact .nil
  | cons x l ih =>
    intro hc
    have ih := ih fun post a b pre h => hc (x :: post) a b pre (by rw [h]; rfl)
    refine List.pairwise_cons.2 ⟨?_, ih⟩
    intro a ha
    cases l with
    | nil => cases ha
    | cons y l =>
      have h1 := hc [] y x l rfl
      rcases List.mem_cons.1 ha with rfl | ha
      · exact h1
      · have h2 := (List.pairwise_cons.1 ih).1 a ha
        have := pause_nonneg hm y
        omega

private theorem spread (m t W : Int) (hm : 0 ≤ m) (hW : 0 ≤ W) : ∀ l : List Int, l.Pairwise (fun b a => a + m ≤ b) →
    (∀ x ∈ l, t ≤ x ∧ x ≤ t + W) → ((l.length : Int) - 1) * m ≤ W := by
  have key : ∀ l : List Int, l.Pairwise (fun b a => a + m ≤ b) → (∀ x ∈ l, t ≤ x) →
      ∀ x ∈ l.head?, t + ((l.length : Int) - 1) * m ≤ x := by
    intro l
    induction l with
    | nil => intro _ _ x hx; cases hx
    | cons y l ih =>
      intro hp ht x hx
      cases hx
      cases l with
      | nil => have := ht y (List.mem_cons_self ..); simp; omega
      | cons z l =>
        have h1 := ih (List.pairwise_cons.1 hp).2 (fun x hx => ht x (List.mem_cons_of_mem _ hx)) z rfl
        have h2 := (List.pairwise_cons.1 hp).1 z (List.mem_cons_self ..)
        simp only [List.length_cons] at h1 ⊢
        push_cast at h1 ⊢
        linarith
  intro l hp hb
  cases l with
  | nil => simp; omega
  | cons y l =>
    have := key _ hp (fun x hx => (hb x hx).1) y rfl
    have := (hb y (List.mem_cons_self ..)).2
    linarith

/-- C82. In every span of time of length `W` at most `W / shortest + 1` failed handshakes and rounds take place. -/
theorem C82_rate (o : Opts) (tm : Times) (hm : 0 ≤ shortest tm) (s : Pacing.State) (h : Pacing.Reachable o tm s)
    (t W : Time) (hW : 0 ≤ W) :
    (((s.stamps.filter fun x => pauses x && decide (t ≤ x.at_) && decide (x.at_ ≤ t + W)).length : Int) - 1) * shortest tm
      ≤ W := by
  have hi := inv_reach h
  have hpw := (pairwise_of_chain tm hm s.stamps hi.2.2.2).filter
    fun x => pauses x && decide (t ≤ x.at_) && decide (x.at_ ≤ t + W)
  have hall : ∀ x ∈ s.stamps.filter fun x => pauses x && decide (t ≤ x.at_) && decide (x.at_ ≤ t + W),
      shortest tm ≤ pauseAfter tm x ∧ t ≤ x.at_ ∧ x.at_ ≤ t + W := by
    intro x hx
    obtain ⟨hx, hp⟩ := List.mem_filter.1 hx
    simp only [Bool.and_eq_true, decide_eq_true_eq] at hp
    refine ⟨?_, hp.1.2, hp.2⟩
    have h1 : shortest tm ≤ tm.retry := min_le_left _ _
    have h2 : shortest tm ≤ tm.syncedSleep := le_trans (min_le_right _ _) (min_le_left _ _)
    have h3 : shortest tm ≤ second := le_trans (min_le_right _ _) (min_le_right _ _)
    have hp1 := hp.1.1
    unfold pauses at hp1
    unfold pauseAfter
    rcases hi.2.1 x hx with ⟨c, e, hw⟩ | ⟨c, r, hw⟩
    · rw [hw] at hp1 ⊢
      cases e with
      | none => cases hp1
      | some e => exact h1
    · rw [hw]; dsimp only
      split
      · exact h2
      · exact h3
  rw [← List.length_map (f := Stamp.at_)]
  apply spread (shortest tm) t W hm hW
  · rw [List.pairwise_map]
    refine hpw.imp_of_mem ?_
    intro b a _ ha hab
    have := (hall a ha).1
    omega
  · intro x hx
    obtain ⟨y, hy, rfl⟩ := List.mem_map.1 hx
    exact (hall y hy).2

/-- C82 with the default options: at most one failed handshake or round per second, plus one. -/
theorem C82_default_rate (o : Opts) (s : Pacing.State) (h : Pacing.Reachable o .default s) (t : Time) (n : Nat) :
    (s.stamps.filter fun x => pauses x && decide (t ≤ x.at_) && decide (x.at_ ≤ t + n * second)).length ≤ n + 1 := by
  have hs : shortest Times.default = second := by decide
  have h1 := C82_rate o .default (by rw [hs]; decide) s h t (n * second) (by
    have : (0 : Int) ≤ second := by decide
    positivity)
  rw [hs] at h1
  have h2 := le_of_mul_le_mul_right h1 (show (0 : Int) < second by decide)
  omega

/-- C82. A timer that is due can fire: a session that waits and whose time has come goes on. -/
theorem C82_goes_on (o : Opts) (tm : Times) (s : Pacing.State) (hdue : s.due ≤ s.now) :
    (s.st.phase = .retryWait → ∃ s', Pacing.step o tm s (.act .retryTimer) = some s' ∧ s'.st.phase = .handshake) ∧
    (∀ b, s.st.phase = .sleeping b → ∃ s', Pacing.step o tm s (.act .sleepTimer) = some s' ∧ s'.st.phase = .sync) := by
  have hn : ¬ s.now < s.due := by omega
  constructor
  · intro hp
    simp [Pacing.step, hn, Session.step, hp]
  · intro b hp
    simp [Pacing.step, hn, Session.step, hp]

/-- C82. The wait begins when the session stops, and has exactly the configured length: it is not longer either. -/
theorem C82_wait_length (o : Opts) (tm : Times) (s s' : Pacing.State) (l : Session.Label)
    (hs : Pacing.step o tm s (.act l) = some s') (hne : s.st.phase ≠ s'.st.phase) :
    (s'.st.phase = .retryWait → s'.due = s.now + tm.retry) ∧
    (s'.st.phase = .sleeping true → s'.due = s.now + tm.syncedSleep) ∧
    (s'.st.phase = .sleeping false → s'.due = s.now + second) := by
  simp only [Pacing.step] at hs
  split at hs
  · cases hs
  split at hs
  · cases hs
  rename_i st hst
  simp only [Option.some.injEq] at hs
  subst hs
  dsimp only at hne ⊢
  refine ⟨fun h => ?_, fun h => ?_, fun h => ?_⟩ <;> simp [timer, h] <;> simp_all

/-- C82 with the default options, in nanoseconds: six seconds after a failed handshake, ten after a round that leaves the
session synced, one after any other round. -/
theorem C82_default_lengths (o : Opts) (s s' : Pacing.State) (l : Session.Label)
    (hs : Pacing.step o .default s (.act l) = some s') (hne : s.st.phase ≠ s'.st.phase) :
    (s'.st.phase = .retryWait → s'.due = s.now + 6000000000) ∧
    (s'.st.phase = .sleeping true → s'.due = s.now + 10000000000) ∧
    (s'.st.phase = .sleeping false → s'.due = s.now + 1000000000) :=
  C82_wait_length o .default s s' l hs hne

/-- C82. Nothing but the end of the pause waits for the timer: while it runs, the session can be cancelled, see that it is, and hand
over its reports. -/
theorem C82_only_pauses (o : Opts) (tm : Times) (s : Pacing.State) (l : Session.Label) (h1 : l ≠ .retryTimer) (h2 : l ≠ .sleepTimer)
    (st : Session.State) (hs : Session.step o s.st l = some st) : ∃ s', Pacing.step o tm s (.act l) = some s' ∧ s'.st = st ∧ s'.now = s.now := by
  have : isTimer l = false := by cases l <;> simp_all [isTimer]
  refine ⟨{ st := st, now := s.now, due := timer tm s.now s.due s.st.phase st.phase, stamps := stamp s.now l st ++ s.stamps }, ?_, rfl, rfl⟩
  simp only [Pacing.step, this, Bool.false_and, Bool.false_eq_true, if_false, hs]

/-! A session that fails one handshake, succeeds in the second and does a round. -/

private def exHs (ok : Bool) : HsEnv :=
  { version := .ok ⟨1, 0, 0⟩, localChainID := .ok [1], peerChainID := .ok (if ok then [1] else [2])
    peerHead := .ok ([9], 9), ancestor := fun _ _ _ => .ok [] }

private def exRound : SyncEnv :=
  { lib := ⟨[9], 9⟩, peerHead := .ok ([9], 9), blocksByID := fun _ => .ok [9], ancestor := fun _ _ => .ok []
    blocks := fun _ _ _ => .ok [], apply := fun _ _ => none }

private def exLabels : List Pacing.Label :=
  [.act (.handshake (exHs false)), .tick 6000000000, .act .retryTimer, .act (.handshake (exHs true)),
    .act (.round exRound), .tick 10000000000, .act .sleepTimer, .act (.round exRound)]

example : ((Pacing.run Opts.default .default (Pacing.init 0) exLabels).map fun s => s.stamps.map Stamp.at_) =
    some [16000000000, 6000000000, 6000000000, 0] := by decide +kernel
/- One nanosecond less and the second round does not happen. -/
example : (Pacing.run Opts.default .default (Pacing.init 0) (exLabels.set 5 (.tick 9999999999))).isNone = true := by
  decide +kernel

end KP2P

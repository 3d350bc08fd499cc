import Verif.Model.GossipToggle
import Verif.Proof.ErrorHandler
/-!
# C31 – C33: gossip scoring and the gossip toggle
-/

namespace KP2P
open Toggle

/-! ## C31 -/

/-- C31. With default options: ignored by gossip iff the error score exceeds the reconnect threshold by more than
one; hence whoever is ignored is also refused connections; peer exchange is accepted iff the score is at most the
reconnect threshold minus 5000. -/
theorem C31_scoring (raw : UInt64) :
    (grayListed .default raw = true ↔ ErrOpts.default.reconnect.toNat + 1 < raw.toNat) ∧
    (grayListed .default raw = true → ¬ raw < ErrOpts.default.reconnect) ∧
    (acceptPX .default raw = true ↔ raw.toNat ≤ ErrOpts.default.reconnect.toNat - 5000) ∧
    (acceptPX .default raw = true → raw < ErrOpts.default.reconnect) := by
  have h : ErrOpts.default.reconnect.toNat = 50000 := by decide +kernel
  unfold grayListed acceptPX appScore
  simp only [decide_eq_true_eq, UInt64.lt_iff_toNat_lt, h]
  refine ⟨?_, ?_, ?_, ?_⟩ <;> omega

/-- C31, end to end: an address the gossip layer ignores would be refused by the connection gater at the same
instant, after any history. -/
theorem C31_ignored_is_refused (d : Spec.Decay) (hist : List (Int × ErrHandler.Event)) (t : Int) (a : MAddr)
    (s : UInt64)
    (hs : ((ErrHandler.new.run d .default hist).handle d .default t (.getScore a)).2 = .score s)
    (hg : grayListed .default s = true) :
    ((ErrHandler.new.run d .default hist).handle d .default t (.canConnect a)).2 = .allowed false := by
  have h1 := (C31_scoring s).2.1 hg
  rw [ErrHandler.reaction_getScore] at hs
  rw [ErrHandler.reaction_canConnect]
  cases hb : ((ErrHandler.new.run d .default hist).bal a.ip).at d t with
  | none =>
    rw [hb] at hs; simp at hs; subst hs
    exact absurd (by decide +kernel : grayListed .default 0 = false) (by rw [hg]; simp)
  | some v =>
    rw [hb] at hs
    simp at hs
    subst hs
    simp only [ErrHandler.Reaction.allowed.injEq, decide_eq_false_iff_not]
    exact h1

example : grayListed .default 200000 = true ∧ grayListed .default 50001 = false ∧ acceptPX .default 45000 = true ∧
    acceptPX .default 45001 = false := by decide +kernel

/-- C31 by peer, as gossip asks: a peer whose address is not known has no score, is not ignored, and may be dialled; a peer that
is ignored may not be dialled. `score` and `allowed` are the answers of the error handler at the same instant. -/
theorem C31_by_peer (d : Spec.Decay) (hist : List (Int × ErrHandler.Event)) (t : Int) (addr : Option MAddr)
    (score : MAddr → UInt64) (allowed : MAddr → Bool)
    (hs : ∀ a, ((ErrHandler.new.run d .default hist).handle d .default t (.getScore a)).2 = .score (score a))
    (ha : ∀ a, ((ErrHandler.new.run d .default hist).handle d .default t (.canConnect a)).2 = .allowed (allowed a)) :
    (addr = none → ErrHandler.peerErrorScore addr score = 0 ∧ grayListed .default (ErrHandler.peerErrorScore addr score) = false ∧
      acceptPX .default (ErrHandler.peerErrorScore addr score) = true ∧ ErrHandler.intercept allowed (.peerDial addr) = true) ∧
    (grayListed .default (ErrHandler.peerErrorScore addr score) = true →
      ErrHandler.intercept allowed (.peerDial addr) = false) := by
  cases addr with
  | none =>
    have h0 : ErrHandler.peerErrorScore none score = 0 := rfl
    rw [h0]
    refine ⟨fun _ => ⟨rfl, by decide +kernel, by decide +kernel, rfl⟩, fun h => ?_⟩
    exact absurd h (by decide +kernel)
  | some a =>
    refine ⟨fun h => (by cases h), fun h => ?_⟩
    have := C31_ignored_is_refused d hist t a (score a) (hs a) h
    rw [ha a] at this
    injection this

example : ∃ (score : MAddr → UInt64) (allowed : MAddr → Bool),
    (∀ a, ((ErrHandler.new.run (fun _ s => s) .default [(0, .perr [1] (some ⟨[5], []⟩) (.sentinel .forkBomb))]).handle
      (fun _ s => s) .default 0 (.getScore a)).2 = .score (score a)) ∧
    (∀ a, ((ErrHandler.new.run (fun _ s => s) .default [(0, .perr [1] (some ⟨[5], []⟩) (.sentinel .forkBomb))]).handle
      (fun _ s => s) .default 0 (.canConnect a)).2 = .allowed (allowed a)) ∧
    grayListed .default (ErrHandler.peerErrorScore (some ⟨[5], [[1]]⟩) score) = true := by
  refine ⟨fun a => _, fun a => _, fun a => ErrHandler.reaction_getScore _ _ _ _ a,
    fun a => ErrHandler.reaction_canConnect _ _ _ _ a, ?_⟩
  decide +kernel

/-! ## C32 -/

/-- Head time as meant: milliseconds since 1970, in nanoseconds. -/
def headMeant (h : UInt64) : Int := (h.toNat : Int) * 1000000

theorem headNanos_eq (h : UInt64) (hb : headMeant h < 2 ^ 63) : headNanos h = headMeant h := by
  unfold headMeant at *
  unfold headNanos
  have h1 : h.toNat < 2 ^ 63 := by omega
  have h2 : h.toInt64.toInt = h.toNat := by
    have e : h.toInt64.toInt = h.toBitVec.toInt := rfl
    rw [e, BitVec.toInt_eq_toNat_of_lt]
    · rfl
    · have : h.toBitVec.toNat = h.toNat := rfl
      omega
  rw [Int64.toInt_mul, h2]
  have : (1000000 : Int64).toInt = 1000000 := by decide +kernel
  rw [this]
  apply Int.bmod_eq_of_le <;> omega

/-- The last head time announced. -/
def lastHead (evs : List Event) : UInt64 :=
  evs.foldl (fun h e => match e with | .head t => t | .tick _ _ => h) 0

theorem run_headTime (o : ToggleOpts) (evs : List Event) : (Toggle.run o evs).headTime = lastHead evs := by
  have key : ∀ (evs : List Event) (g : Toggle) (h : UInt64), g.headTime = h →
      (evs.foldl step g).headTime =
        evs.foldl (fun h e => match e with | .head t => t | .tick _ _ => h) h := by
    intro evs
    induction evs with
    | nil => intro g h e; exact e
    | cons e evs ih =>
      intro g h hg
      rw [List.foldl_cons, List.foldl_cons]
      apply ih
      cases e with
      | head t => rfl
      | tick c n =>
        simp only [step, Toggle.tick]
        repeat' split
        all_goals simp [hg]
  apply key
  unfold Toggle.start
  split <;> (try split) <;> rfl

theorem run_looping (o : ToggleOpts) (evs : List Event) :
    (Toggle.run o evs).looping = (!o.alwaysEnable && !o.alwaysDisable) := by
  have key : ∀ (evs : List Event) (g : Toggle), (evs.foldl step g).looping = g.looping := by
    intro evs
    induction evs with
    | nil => intro g; rfl
    | cons e evs ih =>
      intro g
      rw [List.foldl_cons, ih]
      cases e with
      | head t => rfl
      | tick c n =>
        simp only [step, Toggle.tick]
        repeat' split
        all_goals rfl
  unfold Toggle.run
  rw [key]
  unfold Toggle.start
  cases o.alwaysEnable <;> cases o.alwaysDisable <;> rfl

/-- C32. After every periodic check gossip is enabled iff there is a connection and the head block time is at most
45 seconds behind the wall clock. -/
theorem C32_decision (o : ToggleOpts) (ho : o.alwaysEnable = false ∧ o.alwaysDisable = false)
    (evs : List Event) (conns now : Int) (hh : headMeant (lastHead evs) < 2 ^ 63) :
    (Toggle.run o (evs ++ [.tick conns now])).enabled =
      decide (conns ≠ 0 ∧ now - headMeant (lastHead evs) ≤ 45 * second) := by
  have hl := run_looping o evs
  have ht := run_headTime o evs
  unfold Toggle.run at *
  rw [List.foldl_append, List.foldl_cons, List.foldl_nil]
  generalize evs.foldl step (new.start o) = g at *
  rw [ho.1, ho.2] at hl
  simp only [step, hl, Bool.not_false, Bool.and_self, if_true, Toggle.tick, ht]
  rw [headNanos_eq _ hh]
  by_cases hc : conns = 0
  · simp only [hc, if_true, ne_eq, not_true_eq_false, false_and, decide_false]
    split <;> simp_all
  · simp only [hc, if_false, ne_eq, not_false_eq_true, true_and]
    by_cases hn : now - headMeant (lastHead evs) ≤ 45 * second
    · simp only [hn, if_true, decide_true]; split <;> simp_all
    · simp only [hn, if_false, decide_false]; split <;> simp_all

/-- C32. A head update alone never switches gossip. -/
theorem C32_only_ticks (o : ToggleOpts) (evs : List Event) (t : UInt64) :
    (Toggle.run o (evs ++ [.head t])).enabled = (Toggle.run o evs).enabled := by
  unfold Toggle.run
  rw [List.foldl_append]; rfl

/-- C32, outside the range the conversion wraps around: a head time of `2^64 - 1` ms, far in the future, reads as
before 1970 and gossip is switched off. -/
theorem C32_wraps_beyond : (Toggle.run {} [.head (2 ^ 64 - 1), .tick 3 (1000 * second)]).enabled = false := by
  decide +kernel

example : headMeant 1700000000000 < 2 ^ 63 ∧
    (Toggle.run {} [.head 1700000000000, .tick 3 (1700000045000 * 1000000)]).enabled = true ∧
    (Toggle.run {} [.head 1700000000000, .tick 3 (1700000045000 * 1000000 + 1)]).enabled = false ∧
    (Toggle.run {} [.head 1700000000000, .tick 0 (1700000000000 * 1000000)]).enabled = false := by decide +kernel

/-! ## C33 -/

/-- Commands alternate, starting with enable. -/
def Alternating : List Bool → Bool → Prop
  | [], _ => True
  | c :: cs, expected => c = expected ∧ Alternating cs (!expected)

theorem alternating_snoc (cs : List Bool) (e : Bool) (h : Alternating cs e) :
    Alternating (cs ++ [if cs.length % 2 = 0 then e else !e]) e := by
  induction cs generalizing e with
  | nil => simp [Alternating]
  | cons c cs ih =>
    refine ⟨h.1, ?_⟩
    have := ih (!e) h.2
    have hp : (c :: cs).length % 2 = 0 ↔ ¬ cs.length % 2 = 0 := by simp only [List.length_cons]; omega
    by_cases h0 : cs.length % 2 = 0
    · simp only [hp, h0, not_true_eq_false, if_false]; simpa [h0] using this
    · simp only [hp, h0, not_false_eq_true, if_true]; simpa [h0] using this

/-- Invariant: enabled iff an odd number of commands was given, commands alternate, `enabled` is the last one. -/
def TInv (g : Toggle) : Prop :=
  Alternating g.cmds true ∧ (g.enabled = true ↔ g.cmds.length % 2 = 1) ∧ g.enabled = g.cmds.getLastD false

theorem tinv_push (g : Toggle) (h : TInv g) (b : Bool) (hb : g.enabled = !b) :
    TInv { g with enabled := b, cmds := g.cmds ++ [b] } := by
  obtain ⟨h1, h2, h3⟩ := h
  have ha := alternating_snoc g.cmds true h1
  cases b with
  | true =>
    have he : ¬ g.cmds.length % 2 = 1 := by rw [← h2, hb]; simp
    have h0 : g.cmds.length % 2 = 0 := by omega
    rw [if_pos h0] at ha
    refine ⟨ha, ?_, by simp⟩
    rw [List.length_append, List.length_singleton]
    simp only [true_iff]
    omega
  | false =>
    have he : g.cmds.length % 2 = 1 := by rw [← h2, hb]; rfl
    have h0 : ¬ g.cmds.length % 2 = 0 := by omega
    rw [if_neg h0] at ha
    refine ⟨ha, ?_, by simp⟩
    rw [List.length_append, List.length_singleton]
    simp only [Bool.false_eq_true, false_iff]
    omega

theorem tinv_step (g : Toggle) (h : TInv g) (e : Event) : TInv (g.step e) := by
  cases e with
  | head t => exact h
  | tick c n =>
    unfold step
    simp only
    split
    · unfold Toggle.tick
      split
      · split
        · rename_i _ _ he; exact tinv_push g h false he
        · exact h
      · split
        · split
          · rename_i _ _ he; exact tinv_push g h true (by simpa using he)
          · exact h
        · split
          · rename_i _ _ he; exact tinv_push g h false he
          · exact h
    · exact h

theorem tinv_start (o : ToggleOpts) : TInv (new.start o) := by
  unfold Toggle.start
  split
  · exact ⟨by simp [new, Alternating], by decide, by decide⟩
  · split <;> exact ⟨by simp [new, Alternating], by decide, by decide⟩

/-- C33. Enable and disable commands strictly alternate, starting with enable, and `IsEnabled` always equals the last
command (disabled before the first). -/
theorem C33_alternating (o : ToggleOpts) (evs : List Event) :
    Alternating (Toggle.run o evs).cmds true ∧
      (Toggle.run o evs).enabled = (Toggle.run o evs).cmds.getLastD false := by
  have : ∀ (evs : List Event) (g : Toggle), TInv g → TInv (evs.foldl step g) := by
    intro evs
    induction evs with
    | nil => intro g h; exact h
    | cons e evs ih => intro g h; exact ih _ (tinv_step g h e)
  have := this evs _ (tinv_start o)
  exact ⟨this.1, this.2.2⟩

/-- C33. Always-enable issues exactly one enable, whatever happens and even if always-disable is set as well. -/
theorem C33_always_enable (o : ToggleOpts) (h : o.alwaysEnable = true) (evs : List Event) :
    (Toggle.run o evs).cmds = [true] ∧ (Toggle.run o evs).enabled = true := by
  have key : ∀ (evs : List Event) (g : Toggle), g.looping = false →
      (evs.foldl step g).cmds = g.cmds ∧ (evs.foldl step g).enabled = g.enabled := by
    intro evs
    induction evs with
    | nil => intro g h; exact ⟨rfl, rfl⟩
    | cons e evs ih =>
      intro g hl
      rw [List.foldl_cons]
      cases e with
      | head t => exact ih (g.updateHeadTime t) hl
      | tick c n => have : g.step (.tick c n) = g := by simp [step, hl]
                    rw [this]; exact ih g hl
  have hs : new.start o = { new with enabled := true, cmds := [true], looping := false } := by
    simp [Toggle.start, h, new]
  unfold Toggle.run
  rw [hs]
  have := key evs { new with enabled := true, cmds := [true], looping := false } rfl
  exact this

/-- C33. Always-disable (without always-enable) issues no command at all and stays disabled. -/
theorem C33_always_disable (o : ToggleOpts) (h : o.alwaysEnable = false) (h' : o.alwaysDisable = true)
    (evs : List Event) : (Toggle.run o evs).cmds = [] ∧ (Toggle.run o evs).enabled = false := by
  have key : ∀ (evs : List Event) (g : Toggle), g.looping = false →
      (evs.foldl step g).cmds = g.cmds ∧ (evs.foldl step g).enabled = g.enabled := by
    intro evs
    induction evs with
    | nil => intro g h; exact ⟨rfl, rfl⟩
    | cons e evs ih =>
      intro g hl
      rw [List.foldl_cons]
      cases e with
      | head t => exact ih (g.updateHeadTime t) hl
      | tick c n => have : g.step (.tick c n) = g := by simp [step, hl]
                    rw [this]; exact ih g hl
  have hs : new.start o = { new with enabled := false, looping := false } := by
    simp [Toggle.start, h, h', new]
  unfold Toggle.run
  rw [hs]
  have := key evs { new with enabled := false, looping := false } rfl
  exact this

/-- C33. Given both command-line switches, forcing wins over disabling. -/
theorem C33_force_wins (disable : Bool) (evs : List Event) :
    (Toggle.run (toggleOptsOfFlags disable true) evs).enabled = true :=
  (C33_always_enable _ rfl evs).2

/-- C33. Given only the switch that disables, no command is ever issued; given neither switch, gossip follows the
periodic checks. -/
theorem C33_switches (evs : List Event) :
    ((Toggle.run (toggleOptsOfFlags true false) evs).cmds = [] ∧
      (Toggle.run (toggleOptsOfFlags true false) evs).enabled = false) ∧
    ∀ conns now : Int, headMeant (lastHead evs) < 2 ^ 63 →
      (Toggle.run (toggleOptsOfFlags false false) (evs ++ [.tick conns now])).enabled =
        decide (conns ≠ 0 ∧ now - headMeant (lastHead evs) ≤ 45 * second) :=
  ⟨C33_always_disable _ rfl rfl evs, fun c n h => C32_decision _ ⟨rfl, rfl⟩ evs c n h⟩

example : headMeant (lastHead [.head 1700000000000]) < 2 ^ 63 ∧
    (Toggle.run (toggleOptsOfFlags false false) [.head 1700000000000, .tick 3 (1700000045000 * 1000000)]).enabled =
      true ∧
    (Toggle.run (toggleOptsOfFlags true false) [.head 1700000000000, .tick 3 (1700000045000 * 1000000)]).enabled =
      false := by decide +kernel

example : (Toggle.run {} [.head 1000, .tick 1 (second * 2), .tick 0 (second * 3), .tick 1 (second * 4)]).cmds =
    [true, false, true] := by decide +kernel

end KP2P

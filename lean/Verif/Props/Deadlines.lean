import Verif.Spec.Deadlines
import Verif.Model.PeerRPC
import Verif.Props.Pacing
import Mathlib.Tactic.Ring
import Mathlib.Tactic.Linarith
/-!
# C128: handshakes and rounds end in time, and a session turns to its peer again
-/

namespace KP2P
open KP2P.PeerConn KP2P.Deadlines KP2P.Spec.Deadlines

namespace Deadlines

theorem timed_le {t : Timeouts} {cs : List Call} {a z : Time} (h : Timed t cs a z) : a ≤ z ∧ z ≤ a + budget t cs := by
  induction h with
  | nil a => simp [budget]
  | cons c cs a b z h1 h2 _ ih =>
    simp only [budget]
    push_cast
    omega

theorem budget_append (t : Timeouts) (a b : List Call) : budget t (a ++ b) = budget t a + budget t b := by
  induction a with
  | nil => simp [budget]
  | cons c a ih => simp only [List.cons_append, budget, ih]; omega

theorem budget_checkpoints (t : Timeouts) (anc : Nat → Bytes → UInt64 → Except Err Bytes) (head : Bytes) :
    ∀ (cs : List Checkpoint) (i : Nat),
      budget t (checkpointLoop anc head i cs).1 ≤ cs.length * (t.remoteRPC + t.lag)
  | [], i => by simp [checkpointLoop, budget]
  | c :: cs, i => by
    have ih := budget_checkpoints t anc head cs (i + 1)
    have hexp : (cs.length + 1) * (t.remoteRPC + t.lag) = cs.length * (t.remoteRPC + t.lag) + (t.remoteRPC + t.lag) := by ring
    simp only [checkpointLoop, List.length_cons]
    rw [hexp]
    split
    · simp only [budget, timeout]; omega
    · split
      · simp only [budget, timeout]; omega
      · simp only [budget, timeout]; omega

theorem budget_handshake (o : Opts) (t : Timeouts) (e : HsEnv) :
    budget t (handshake o e).calls ≤
      t.version + t.localRPC + (2 + o.checkpoints.length) * t.remoteRPC + (4 + o.checkpoints.length) * t.lag := by
  have hrest : budget t (handshakeRest o e).1 ≤
      t.localRPC + (2 + o.checkpoints.length) * t.remoteRPC + (3 + o.checkpoints.length) * t.lag := by
    have hexp : (2 + o.checkpoints.length) * t.remoteRPC + (3 + o.checkpoints.length) * t.lag =
        o.checkpoints.length * (t.remoteRPC + t.lag) + 2 * t.remoteRPC + 3 * t.lag := by ring
    have hpos : 0 ≤ o.checkpoints.length * (t.remoteRPC + t.lag) := Nat.zero_le _
    rw [Nat.add_assoc, hexp]
    unfold handshakeRest
    split
    · simp only [budget, timeout]; omega
    · split
      · simp only [budget, timeout]; omega
      · split
        · split
          · simp only [budget, timeout]; omega
          · rename_i head _ _
            have := budget_checkpoints t e.ancestor head o.checkpoints 0
            simp only [budget_append, budget, timeout]; omega
        · simp only [budget, timeout]; omega
  have hexp : (4 + o.checkpoints.length) * t.lag = (3 + o.checkpoints.length) * t.lag + t.lag := by ring
  rw [hexp]
  unfold handshake
  split
  · simp only [budget, timeout]; omega
  · split
    · simp only [budget, timeout]; omega
    · simp only [budget, timeout]; omega

theorem budget_apply (t : Timeouts) (app : Nat → RawBlock → Option Err) :
    ∀ (bs : List RawBlock) (i : Nat), budget t (applyLoop app i bs).1 ≤ bs.length * (t.applicator + t.lag)
  | [], i => by simp [applyLoop, budget]
  | b :: bs, i => by
    have ih := budget_apply t app bs (i + 1)
    have hexp : (bs.length + 1) * (t.applicator + t.lag) = bs.length * (t.applicator + t.lag) + (t.applicator + t.lag) := by ring
    simp only [applyLoop, List.length_cons]
    rw [hexp]
    repeat' split
    all_goals (simp only [budget, timeout]; omega)

theorem toRequest_le (o : Opts) (lib head : UInt64) : (toRequest o lib head).toUInt32.toNat ≤ o.batch.toNat := by
  have h1 : (toRequest o lib head).toUInt32.toNat ≤ (toRequest o lib head).toNat := by
    rw [UInt64.toNat_toUInt32]; exact Nat.mod_le _ _
  have h2 : (toRequest o lib head).toNat ≤ o.batch.toNat := by
    unfold toRequest
    split
    · exact Nat.le_refl _
    · rename_i h
      exact UInt64.le_iff_toNat_le.1 (UInt64.not_lt.1 h)
  omega

/-- The peer's answer has at most as many blocks as were asked for. -/
def AsAsked (e : SyncEnv) : Prop := ∀ h s n bs, e.blocks h s n = .ok bs → bs.length ≤ n.toNat

theorem budget_fetch (o : Opts) (t : Timeouts) (e : SyncEnv) (synced : Bool) (headID : Bytes) (head : UInt64) (hb : AsAsked e) :
    budget t (fetch o e synced headID head).calls ≤ t.blockRequest + t.lag + o.batch.toNat * (t.applicator + t.lag) := by
  unfold fetch
  simp only
  split
  · simp only [budget, timeout]; omega
  · rename_i bs hbs
    have h1 := Nat.le_trans (hb _ _ _ bs hbs) (toRequest_le o e.lib.height head)
    have h2 := Nat.le_trans (budget_apply t e.apply bs 0) (Nat.mul_le_mul_right (t.applicator + t.lag) h1)
    repeat' split
    all_goals (simp only [budget, timeout]; omega)

theorem budget_round (o : Opts) (t : Timeouts) (e : SyncEnv) (synced : Bool) (hb : AsAsked e) :
    budget t (requestSyncBlocks o e synced).calls ≤
      2 * t.remoteRPC + t.localRPC + t.blockRequest + o.batch.toNat * t.applicator + (4 + o.batch.toNat) * t.lag := by
  have hexp : 2 * t.remoteRPC + t.localRPC + t.blockRequest + o.batch.toNat * t.applicator + (4 + o.batch.toNat) * t.lag =
      2 * t.remoteRPC + t.localRPC + 3 * t.lag + (t.blockRequest + t.lag + o.batch.toNat * (t.applicator + t.lag)) := by ring
  rw [hexp]
  have hf := fun headID head => budget_fetch o t e synced headID head hb
  generalize t.blockRequest + t.lag + o.batch.toNat * (t.applicator + t.lag) = W at hf
  unfold requestSyncBlocks
  split
  · simp only [budget, timeout]; omega
  · rename_i headID head _
    have := hf headID head
    repeat' split
    all_goals (simp only [budget, budget_append, timeout]; omega)

end Deadlines

/-- C128. A handshake ends within the time-outs of its calls: the version's, one of the local RPC, two of the peer's and one
more for every checkpoint. -/
theorem C128_handshake (o : Opts) (t : Timeouts) (e : HsEnv) (a z : Time) (h : Timed t (handshake o e).calls a z) :
    z ≤ a + t.version + t.localRPC + (2 + o.checkpoints.length) * t.remoteRPC + (4 + o.checkpoints.length) * t.lag := by
  have h1 := (Deadlines.timed_le h).2
  have h2 := Deadlines.budget_handshake o t e
  zify at h2
  linarith

/-- C128. A peer that does not answer costs no more than the first question to it. -/
theorem C128_silent (o : Opts) (t : Timeouts) (e : HsEnv) (err : Err) (hs : e.peerChainID = .error err) (a z : Time)
    (h : Timed t (handshake o e).calls a z) : z ≤ a + t.version + t.localRPC + t.remoteRPC + 3 * t.lag := by
  have h1 := (Deadlines.timed_le h).2
  have h2 : budget t (handshake o e).calls ≤ t.version + t.localRPC + t.remoteRPC + 3 * t.lag := by
    have hr : budget t (handshakeRest o e).1 ≤ t.localRPC + t.remoteRPC + 2 * t.lag := by
      unfold handshakeRest
      rw [hs]
      split <;> (simp only [budget, timeout]; omega)
    unfold handshake
    split
    · simp only [budget, timeout]; omega
    · split <;> (simp only [budget, timeout]; omega)
  zify at h2
  linarith

/-- C128. A round ends within the time-outs of its calls, if the peer sends no more blocks than asked for. -/
theorem C128_round (o : Opts) (t : Timeouts) (e : SyncEnv) (synced : Bool) (hb : Deadlines.AsAsked e) (a z : Time)
    (h : Timed t (requestSyncBlocks o e synced).calls a z) :
    z ≤ a + 2 * t.remoteRPC + t.localRPC + t.blockRequest + o.batch.toNat * t.applicator + (4 + o.batch.toNat) * t.lag := by
  have h1 := (Deadlines.timed_le h).2
  have h2 := Deadlines.budget_round o t e synced hb
  zify at h2
  linarith

/-- C128. The peer client sees to that: an answer with another number of blocks is refused (unless it has `2^32` or more). -/
theorem C128_as_asked (c : PeerRPC.Codec) (call : Bytes → UInt64 → UInt32 → PeerRPC.Ret (List Bytes))
    (hsmall : ∀ h s n, (call h s n).val.length < 2 ^ 32) (e : SyncEnv) (he : e.blocks = PeerRPC.getBlocks c call) :
    Deadlines.AsAsked e := by
  have hdec : ∀ (l : List Bytes) (bs : List RawBlock), PeerRPC.decodeAll c l = .ok bs → bs.length = l.length := by
    intro l
    induction l with
    | nil => intro bs h; simp only [PeerRPC.decodeAll, Except.ok.injEq] at h; subst h; rfl
    | cons x l ih =>
      intro bs h
      simp only [PeerRPC.decodeAll] at h
      split at h
      · cases h
      · split at h
        · cases h
        · rename_i b _ bs' hb'
          simp only [Except.ok.injEq] at h
          subst h
          simp [ih _ hb']
  intro h s n bs hbs
  rw [he] at hbs
  unfold PeerRPC.getBlocks at hbs
  split at hbs
  · cases hbs
  · simp only at hbs
    split at hbs
    · cases hbs
    · rename_i hn
      rw [hdec _ _ hbs]
      have hlen : (UInt32.ofNat (call h s n).val.length).toNat = (call h s n).val.length := by
        rw [UInt32.toNat_ofNat', Nat.mod_eq_of_lt (hsmall h s n)]
      rw [← hlen, not_not.1 hn]

/-- C128 with the default options, in seconds, calls returning without delay: a handshake takes at most 23 (and 6 for every
checkpoint), a round at most 6168. -/
theorem C128_default (o : Opts) (e : HsEnv) (e' : SyncEnv) (synced : Bool) (hb : Deadlines.AsAsked e') (hbatch : o.batch = 500)
    (a z z' : Time) (h : Timed (.default 0) (handshake o e).calls a z)
    (h' : Timed (.default 0) (requestSyncBlocks o e' synced).calls a z') :
    z ≤ a + (23 + 6 * o.checkpoints.length) * second ∧ z' ≤ a + 6168 * second := by
  have h1 := C128_handshake o (.default 0) e a z h
  have h2 := C128_round o (.default 0) e' synced hb a z' h'
  rw [hbatch] at h2
  simp only [Timeouts.default, second] at h1 h2 ⊢
  push_cast at h1 h2
  constructor
  · linarith
  · linarith

/-- How many seconds a call may take. -/
def secondsFor : Call → Int
  | .version => 5
  | .localChainID | .localBlocksByID _ => 6
  | .peerChainID | .peerHead | .peerAncestor _ _ => 6
  | .peerBlocks _ _ _ => 150
  | .applyBlock _ => 12

/-- C128 with the default options: how long each call is given, exactly. -/
theorem C128_patience (c : Call) (a z : Time) : Timed (.default 0) [c] a z ↔ a ≤ z ∧ z ≤ a + secondsFor c * second := by
  have key : ((timeout (.default 0) c : Nat) : Int) = secondsFor c * second := by
    cases c <;> simp [timeout, Timeouts.default, secondsFor, second]
  constructor
  · intro h
    cases h with
    | cons _ _ _ y _ h1 h2 h3 =>
      cases h3
      refine ⟨h1, ?_⟩
      have hl : (Timeouts.default 0).lag = 0 := rfl
      rw [key, hl] at h2
      omega
  · rintro ⟨h1, h2⟩
    refine .cons _ _ a z _ h1 ?_ (.nil _)
    have hl : (Timeouts.default 0).lag = 0 := rfl
    rw [key, hl]
    omega

/-! ## The session -/

namespace Deadlines
open Pacing

/-- How long after the stamp `a` the session comes to its next handshake or round. -/
def gap (tm : Pacing.Times) (t : Timeouts) (wait : Nat) (a : Stamp) : Time :=
  pauseAfter tm a + (if reports a then wait else 0) + (if pauses a then t.lag else 0)

/-- What is known about where the session is and since when. -/
def Inv (tm : Pacing.Times) (t : Timeouts) (wait : Nat) (t0 : Time) (s : Pacing.State) (since : Time) : Prop :=
  (match s.st.phase with
    | .handshake => match s.stamps with | [] => since = t0 | a :: _ => since ≤ a.at_ + gap tm t wait a
    | .sync => ∃ a pre, s.stamps = a :: pre ∧ since ≤ a.at_ + gap tm t wait a
    | .retryWait => ∃ a pre, s.stamps = a :: pre ∧ pauses a = true ∧
        s.due ≤ a.at_ + pauseAfter tm a + (if reports a then wait else 0)
    | .sleeping _ => ∃ a pre, s.stamps = a :: pre ∧ pauses a = true ∧
        s.due ≤ a.at_ + pauseAfter tm a + (if reports a then wait else 0)
    | .reporting _ => ∃ a pre, s.stamps = a :: pre ∧ pauses a = true ∧ reports a = true ∧ since = a.at_ ∧
        pauseAfter tm a = (if s.st.synced then tm.syncedSleep else second)
    | _ => True) ∧
  (∀ post a b pre, s.stamps = post ++ b :: a :: pre → b.at_ ≤ a.at_ + gap tm t wait a + budget t (callsOf b)) ∧
  (∀ post a, s.stamps = post ++ [a] → a.at_ ≤ t0 + budget t (callsOf a))

theorem chain_cons {tm : Pacing.Times} {t : Timeouts} {wait : Nat} {l : List Stamp} {x : Stamp}
    (hx : ∀ y ∈ l.head?, x.at_ ≤ y.at_ + gap tm t wait y + budget t (callsOf x))
    (h : ∀ post a b pre, l = post ++ b :: a :: pre → b.at_ ≤ a.at_ + gap tm t wait a + budget t (callsOf b)) :
    ∀ post a b pre, x :: l = post ++ b :: a :: pre → b.at_ ≤ a.at_ + gap tm t wait a + budget t (callsOf b) := by
  intro post a b pre he
  cases post with
  | nil =>
    simp only [List.nil_append, List.cons.injEq] at he
    obtain ⟨rfl, rfl⟩ := he
    exact hx a rfl
  | cons p post =>
    simp only [List.cons_append, List.cons.injEq] at he
    exact h post a b pre he.2

theorem first_cons {t : Timeouts} {t0 : Time} {l : List Stamp} {x : Stamp}
    (hx : l = [] → x.at_ ≤ t0 + budget t (callsOf x))
    (h : ∀ post a, l = post ++ [a] → a.at_ ≤ t0 + budget t (callsOf a)) :
    ∀ post a, x :: l = post ++ [a] → a.at_ ≤ t0 + budget t (callsOf a) := by
  intro post a he
  cases post with
  | nil =>
    simp only [List.nil_append, List.cons.injEq] at he
    obtain ⟨rfl, rfl⟩ := he
    exact hx rfl
  | cons p post =>
    simp only [List.cons_append, List.cons.injEq] at he
    exact h post a he.2

theorem inv_step {o : Opts} {tm : Pacing.Times} {t : Timeouts} {wait : Nat} {t0 : Time} {s s' : Pacing.State} {since : Time}
    {l : Pacing.Label} (hi : Inv tm t wait t0 s since) (ht : onTime o t wait s since l) (hs : Pacing.step o tm s l = some s') :
    Inv tm t wait t0 s' (if s'.st.phase = s.st.phase then since else s.now) := by
  obtain ⟨h1, h2, h3⟩ := hi
  cases l with
  | tick d => cases hs; rw [if_pos rfl]; exact ⟨h1, h2, h3⟩
  | act l =>
    simp only [Pacing.step] at hs
    split at hs
    · cases hs
    split at hs
    · cases hs
    rename_i st hst
    cases hs
    cases l with
    | handshake e =>
      have hb := (timed_le ht).2
      simp only [Session.step] at hst
      split at hst
      · rename_i hp
        rw [hp] at h1
        simp only at h1
        have hnew : ∀ x : Stamp, x.at_ = s.now → callsOf x = (handshake o e).calls →
            (∀ y ∈ s.stamps.head?, x.at_ ≤ y.at_ + gap tm t wait y + budget t (callsOf x)) ∧
            (s.stamps = [] → x.at_ ≤ t0 + budget t (callsOf x)) := by
          intro x hx hcx
          rw [hx, hcx]
          constructor
          · intro y hy
            cases hst' : s.stamps with
            | nil => rw [hst'] at hy; cases hy
            | cons z l =>
              rw [hst'] at hy h1
              simp only [List.head?_cons, Option.mem_def, Option.some.injEq] at hy
              subst hy
              simp only at h1
              omega
          · intro he
            rw [he] at h1
            simp only at h1
            omega
        split at hst
        · cases hst
          obtain ⟨hn1, hn2⟩ := hnew ⟨s.now, .handshake (handshake o e).calls none, s.st.synced⟩ rfl rfl
          refine ⟨?_, chain_cons hn1 h2, first_cons hn2 h3⟩
          simp only [hp, reduceCtorEq, if_false]
          refine ⟨_, s.stamps, rfl, ?_⟩
          simp [gap, pauseAfter, reports, pauses]
        · rename_i err hr
          cases hst
          obtain ⟨hn1, hn2⟩ := hnew ⟨s.now, .handshake (handshake o e).calls (some err), s.st.synced⟩ rfl rfl
          refine ⟨?_, chain_cons hn1 h2, first_cons hn2 h3⟩
          refine ⟨_, s.stamps, rfl, rfl, ?_⟩
          simp [timer, hp, pauseAfter, reports]
      · cases hst
    | retryTimer =>
      simp only [onTime] at ht
      simp only [Session.step] at hst
      split at hst
      · rename_i hp
        cases hst
        rw [hp] at h1
        obtain ⟨a, pre, ha, hpa, hdue⟩ := h1
        refine ⟨?_, h2, h3⟩
        simp only [stamp, List.nil_append, ha, hp, reduceCtorEq, if_false, gap, hpa, if_true]
        omega
      · cases hst
    | round e =>
      have hb := (timed_le ht).2
      simp only [Session.step] at hst
      split at hst
      · rename_i hp
        rw [hp] at h1
        simp only at h1
        obtain ⟨a, pre, ha, hsince⟩ := h1
        have hnew : ∀ x : Stamp, x.at_ = s.now → callsOf x = (requestSyncBlocks o e s.st.synced).calls →
            (∀ y ∈ s.stamps.head?, x.at_ ≤ y.at_ + gap tm t wait y + budget t (callsOf x)) ∧
            (s.stamps = [] → x.at_ ≤ t0 + budget t (callsOf x)) := by
          intro x hx hcx
          rw [hx, hcx, ha]
          constructor
          · intro y hy
            simp only [List.head?_cons, Option.mem_def, Option.some.injEq] at hy
            subst hy
            omega
          · intro he; cases he
        obtain ⟨hn1, hn2⟩ := hnew ⟨s.now, .round (requestSyncBlocks o e s.st.synced).calls
          (requestSyncBlocks o e s.st.synced).out, (requestSyncBlocks o e s.st.synced).synced⟩ rfl rfl
        split at hst <;> cases hst
        · rename_i hr
          refine ⟨?_, chain_cons hn1 h2, first_cons hn2 h3⟩
          refine ⟨_, s.stamps, rfl, rfl, ?_⟩
          simp [timer, hp, pauseAfter, reports, hr]
        · rename_i err hr
          refine ⟨?_, chain_cons hn1 h2, first_cons hn2 h3⟩
          refine ⟨_, s.stamps, rfl, rfl, ?_, ?_, ?_⟩
          · simp [reports, hr]
          · simp [hp]
          · simp [pauseAfter]
        · exact ⟨trivial, chain_cons hn1 h2, first_cons hn2 h3⟩
      · cases hst
    | report =>
      simp only [onTime] at ht
      simp only [Session.step] at hst
      split at hst
      · rename_i e hp
        cases hst
        rw [hp] at h1
        obtain ⟨a, pre, ha, hpa, hra, hsi, hpause⟩ := h1
        refine ⟨⟨a, pre, ha, hpa, ?_⟩, h2, h3⟩
        simp only [timer, hp, reduceCtorEq, if_false, hra, if_true, hpause]
        omega
      · cases hst
    | sleepTimer =>
      simp only [onTime] at ht
      simp only [Session.step] at hst
      split at hst
      · rename_i b hp
        cases hst
        rw [hp] at h1
        obtain ⟨a, pre, ha, hpa, hdue⟩ := h1
        refine ⟨?_, h2, h3⟩
        simp only [stamp, List.nil_append, hp, reduceCtorEq, if_false]
        refine ⟨a, pre, ha, ?_⟩
        simp only [gap, hpa, if_true]
        omega
      · cases hst
    | seeDone =>
      simp only [Session.step] at hst
      split at hst
      · split at hst <;> cases hst <;> exact ⟨trivial, h2, h3⟩
      · cases hst
    | deliver i =>
      simp only [Session.step] at hst
      split at hst
      · cases hst
        refine ⟨?_, h2, h3⟩
        simpa [timer, stamp] using h1
      · cases hst
    | giveUp i =>
      simp only [Session.step] at hst
      split at hst
      · split at hst
        · cases hst
          refine ⟨?_, h2, h3⟩
          simpa [timer, stamp] using h1
        · cases hst
      · cases hst
    | cancel =>
      cases hst
      refine ⟨?_, h2, h3⟩
      simpa [timer, stamp] using h1

theorem inv_run {o : Opts} {tm : Pacing.Times} {t : Timeouts} {wait : Nat} {t0 : Time} :
    ∀ (ls : List Pacing.Label) (s s' : Pacing.State) (since : Time), Inv tm t wait t0 s since →
      Timely o tm t wait s since ls → Pacing.run o tm s ls = some s' → ∃ since', Inv tm t wait t0 s' since'
  | [], s, s', since, hi, _, hr => by
    simp only [Pacing.run, Option.some.injEq] at hr
    exact ⟨since, hr ▸ hi⟩
  | l :: ls, s, s', since, hi, ht, hr => by
    simp only [Pacing.run] at hr
    cases hst : Pacing.step o tm s l with
    | none => rw [hst] at hr; cases hr
    | some s1 =>
      rw [hst] at hr
      exact inv_run ls s1 s' _ (inv_step hi ht.1 hst) (ht.2 s1 hst) hr

end Deadlines

/-- C128. If no call takes longer than its time-out, timers are served and reported errors are taken, a session turns to its
peer again: the next handshake or round is over at most the pause due, the waiting for the error handler and the time-outs of
its own calls after the last one was. The first one is over within the time-outs of its calls after the start. -/
theorem C128_again (o : Opts) (tm : Pacing.Times) (t : Timeouts) (wait : Nat) (t0 : Time) (ls : List Pacing.Label)
    (s : Pacing.State) (hr : Pacing.run o tm (Pacing.init t0) ls = some s)
    (ht : Timely o tm t wait (Pacing.init t0) t0 ls) :
    (∀ post a b pre, s.stamps = post ++ b :: a :: pre →
      b.at_ ≤ a.at_ + pauseAfter tm a + (if reports a then wait else 0) + (if pauses a then t.lag else 0) + budget t (callsOf b)) ∧
    ∀ post a, s.stamps = post ++ [a] → a.at_ ≤ t0 + budget t (callsOf a) := by
  obtain ⟨since, hi⟩ := Deadlines.inv_run ls _ s t0 (t0 := t0) ⟨rfl, by simp [Pacing.init], by simp [Pacing.init]⟩ ht hr
  refine ⟨fun post a b pre h => ?_, hi.2.2⟩
  have := hi.2.1 post a b pre h
  simp only [Deadlines.gap] at this
  linarith

/-! ### An example: a handshake that fails at the peer's first question, the retry time, and one that succeeds -/

namespace Deadlines
open Pacing

def exHs (ok : Bool) : HsEnv :=
  { version := .ok ⟨1, 0, 0⟩, localChainID := .ok [1], peerChainID := if ok then .ok [1] else .error (.sentinel .peerRPCTimeout)
    peerHead := .ok ([9], 9), ancestor := fun _ _ _ => .ok [] }

def exRun : List Pacing.Label :=
  [.tick 6000000010, .act (.handshake (exHs false)), .tick 6000000003, .act .retryTimer, .tick 40, .act (.handshake (exHs true))]

def exState (n : Nat) : Pacing.State := (Pacing.run .default .default (Pacing.init 0) (exRun.take n)).getD (Pacing.init 0)

example : (Pacing.run .default .default (Pacing.init 0) exRun).map (fun s => s.stamps.map Stamp.at_) =
    some [12000000053, 6000000010] := by decide +kernel

example : Timely .default .default (.default 5) 0 (Pacing.init 0) 0 exRun := by
  refine ⟨trivial, fun s1 h1 => ?_⟩
  cases h1
  refine ⟨?_, fun s2 h2 => ?_⟩
  · exact .cons _ _ 0 1 _ (by decide) (by decide) (.cons _ _ 1 10 _ (by decide) (by decide)
      (.cons _ _ 10 6000000010 _ (by decide) (by decide) (.nil _)))
  cases h2
  refine ⟨trivial, fun s3 h3 => ?_⟩
  cases h3
  refine ⟨(by decide : (6000000010 : Int) + 6000000003 ≤ 6000000010 + 6000000000 + 5), fun s4 h4 => ?_⟩
  cases h4
  refine ⟨trivial, fun s5 h5 => ?_⟩
  cases h5
  refine ⟨?_, fun s6 _ => trivial⟩
  exact .cons _ _ 12000000013 12000000020 _ (by decide) (by decide) (.cons _ _ 12000000020 12000000030 _ (by decide) (by decide)
    (.cons _ _ 12000000030 12000000040 _ (by decide) (by decide)
      (.cons _ _ 12000000040 12000000053 _ (by decide) (by decide) (.nil _))))

/- A round in which two blocks are applied. -/
def exSync : SyncEnv :=
  { lib := ⟨[5], 0⟩, peerHead := .ok ([9], 2), blocksByID := fun _ => .ok [0], ancestor := fun _ _ => .ok []
    blocks := fun _ _ n => .ok (List.replicate n.toNat { id := some [1], header := some ⟨some [], 2, 0, none⟩ })
    apply := fun _ _ => none }

example : AsAsked exSync := by
  intro h s n bs hb
  simp only [exSync, Except.ok.injEq] at hb
  subst hb
  simp

example : budget (.default 0) (requestSyncBlocks .default exSync false).calls = 186 * 1000000000 := by decide +kernel

end Deadlines

end KP2P

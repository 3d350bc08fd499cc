import Verif.Model.Deadlines
/-!
# What it means that calls return when their contexts end, and that a session is not held up otherwise
-/

namespace KP2P.Spec.Deadlines
open KP2P KP2P.PeerConn KP2P.Deadlines

/-- The calls are made one after the other from `a` on, the last returns at `z`, and none takes longer than its time-out
(and the lag). -/
inductive Timed (t : Timeouts) : List Call → Time → Time → Prop
  | nil (a : Time) : Timed t [] a a
  | cons (c : Call) (cs : List Call) (a b z : Time) : a ≤ b → b ≤ a + timeout t c + t.lag → Timed t cs b z → Timed t (c :: cs) a z

/-- The step `l` from `s` is not late; `since` is when the session came to where it is. A handshake or a round takes as long
as its calls (`Timed`), a timer is served within the lag, and the error handler takes an error within `wait`. -/
def onTime (o : Opts) (t : Timeouts) (wait : Nat) (s : Pacing.State) (since : Time) : Pacing.Label → Prop
  | .act (.handshake e) => Timed t (PeerConn.handshake o e).calls since s.now
  | .act (.round e) => Timed t (requestSyncBlocks o e s.st.synced).calls since s.now
  | .act .retryTimer => s.now ≤ s.due + t.lag
  | .act .sleepTimer => s.now ≤ s.due + t.lag
  | .act .report => s.now ≤ since + wait
  | _ => True

/-- No step of the execution is late. -/
def Timely (o : Opts) (tm : Pacing.Times) (t : Timeouts) (wait : Nat) : Pacing.State → Time → List Pacing.Label → Prop
  | _, _, [] => True
  | s, since, l :: ls => onTime o t wait s since l ∧
      ∀ s', Pacing.step o tm s l = some s' →
        Timely o tm t wait s' (if s'.st.phase = s.st.phase then since else s.now) ls

/-- The calls of a handshake or round. -/
def callsOf (x : Pacing.Stamp) : List Call :=
  match x.what with
  | .handshake c _ => c
  | .round c _ => c
  | _ => []

/-- Whether an error is reported after the round, before the session sleeps. -/
def reports (x : Pacing.Stamp) : Bool :=
  match x.what with
  | .round _ (.err _) => true
  | _ => false

end KP2P.Spec.Deadlines

import Verif.Base.Basic
import Verif.Model.ErrorHandler
/-!
# Model of internal/p2p/gossip_toggle.go and of the gossip scoring parameters in internal/node/node.go
-/

namespace KP2P

/-- internal/options/gossip_toggle_options.go:9-12. -/
structure ToggleOpts where
  alwaysEnable : Bool := false
  alwaysDisable : Bool := false
  deriving DecidableEq, Repr

/-- cmd/koinos-p2p/main.go:166-171: the two command-line switches set the two options independently. -/
def toggleOptsOfFlags (disableGossip forceGossip : Bool) : ToggleOpts :=
  { alwaysDisable := disableGossip, alwaysEnable := forceGossip }

/-- gossip_toggle.go:18-27, `GossipToggle`; `cmds` is the list of `EnableGossip` calls made so far (ghost). -/
structure Toggle where
  enabled : Bool
  headTime : UInt64
  cmds : List Bool
  /-- the checking loop is running (it is not after the early returns of lines 52 and 58) -/
  looping : Bool
  deriving DecidableEq, Repr

namespace Toggle

/-- gossip_toggle.go:106-114, `NewGossipToggle`. -/
def new : Toggle := { enabled := false, headTime := 0, cmds := [], looping := false }

/-- gossip_toggle.go:44-59, `Start` up to the loop. -/
def start (o : ToggleOpts) (g : Toggle) : Toggle :=
  if o.alwaysEnable then { g with enabled := true, cmds := g.cmds ++ [true], looping := false }
  else if o.alwaysDisable then { g with enabled := false, looping := false }
  else { g with looping := true }

/-- gossip_toggle.go:81, the head time in nanoseconds, with the wrap-around of `int64(x)*int64(1000000)`. -/
def headNanos (h : UInt64) : Int := (h.toInt64 * 1000000).toInt

/-- gossip_toggle.go:37-41, `UpdateHeadTime`. -/
def updateHeadTime (g : Toggle) (t : UInt64) : Toggle := { g with headTime := t }

/-- gossip_toggle.go:72-100, one turn of the loop, with the reply of `GetNumConnections` and the wall clock
(nanoseconds since 1970; `time.Since` saturates only beyond 292 years, which cannot change the comparison with
45 s). -/
def tick (g : Toggle) (conns : Int) (now : Int) : Toggle :=
  if conns = 0 then
    if g.enabled then { g with enabled := false, cmds := g.cmds ++ [false] } else g
  else if now - headNanos g.headTime ≤ 45 * second then
    if !g.enabled then { g with enabled := true, cmds := g.cmds ++ [true] } else g
  else
    if g.enabled then { g with enabled := false, cmds := g.cmds ++ [false] } else g

inductive Event where
  | head (t : UInt64)
  | tick (conns : Int) (now : Int)
  deriving DecidableEq, Repr

/-- Events after `Start`; without a running loop ticks do nothing. -/
def step (g : Toggle) : Event → Toggle
  | .head t => g.updateHeadTime t
  | .tick c now => if g.looping then g.tick c now else g

/-- A run: head updates may come before `Start`, too, but that is the same as right after it. -/
def run (o : ToggleOpts) (evs : List Event) : Toggle := evs.foldl step (new.start o)

end Toggle

/-! ## Gossip scoring (internal/node/node.go:158-172) -/

/-- node.go:158-161, `AppSpecificScore` with exact arithmetic (scores below `2^53` are exact in float64). The other
components of the pubsub score have weight zero or no topics configured. -/
def appScore (o : ErrOpts) (raw : UInt64) : Int := -(raw.toNat : Int) + o.reconnect.toNat

/-- node.go:169, gray-listed (all messages ignored): pubsub tests `score < GraylistThreshold`. The gossip and publish
thresholds (lines 167-168) have the same value. -/
def grayListed (o : ErrOpts) (raw : UInt64) : Bool := decide (appScore o raw < -1)

/-- node.go:170, peer exchange: pubsub ignores it if `score < AcceptPXThreshold`. -/
def acceptPX (o : ErrOpts) (raw : UInt64) : Bool := decide (¬ appScore o raw < 5000)

end KP2P

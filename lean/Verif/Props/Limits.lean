import Verif.Props.ApplicatorMore
import Verif.Props.PeerConn
/-!
# C76: the default resource limits
-/

namespace KP2P
open App

/-- The default options of the applicator. -/
def defaultApp : AppOpts := {}

/-- C76: with default options at most 2500 blocks wait at any moment. -/
theorem C76_waiting {s : AState} (h : Reachable defaultApp s) : (waitingBlocks s).length ≤ 2500 :=
  C12_bounded h

/-- C76: with default options a request is refused as too high iff the block is more than 60 above everything known;
it is then refused in favour of at most 2500 waiting blocks. (`h1`: the chain has fewer than 2^64-60 blocks.) -/
theorem C76_height {hi lib : UInt64} {T0 : Int} {ls : List Label} {s s' : AState} {i r : Nat} {b : Blk}
    (hr : App.run defaultApp (App.init hi lib T0) ls = some s) (hq : s.newQ[i]? = some (r, b))
    (hst : step defaultApp s (.newBlock i) = some s') (h1 : s.highest.toNat + 60 < 2 ^ 64) :
    s'.log = .answer r (some (.sentinel .maxHeight)) :: s.log ↔
      hi.toNat + 60 < b.height.toNat ∧ ∀ id h, Label.broadcast id h ∈ ls → h.toNat + 60 < b.height.toNat :=
  C74_too_high hr hq hst h1

/-- C76: with default options a waiting list is full at exactly 2500 blocks. -/
theorem C76_full (s : AState) (b : Blk) (h1 : s.highest.toNat + 60 < 2 ^ 64)
    (hh : b.height.toNat ≤ s.highest.toNat + 60) :
    admission defaultApp s b = some (.sentinel .maxPendingBlocks) ↔ 2500 ≤ (waitingBlocks s).length := by
  have e1 : defaultApp.maxHeightDelta.toNat = 60 := rfl
  have e2 : defaultApp.maxPendingBlocks.toNat = 2500 := rfl
  rw [C13_admission_partial defaultApp s b (by rw [e1]; exact h1) (by rw [e2]; decide), e1, e2]
  unfold Spec.admit
  rw [if_neg (by omega)]
  by_cases h : (waitingBlocks s).length ≥ 2500
  · rw [if_pos h]; exact ⟨fun _ => h, fun _ => rfl⟩
  · rw [if_neg h]
    constructor
    · intro hx
      split at hx <;> cases hx
    · intro hx; exact absurd hx h

/-- C76: with default options a block is never held back for more than a minute, and a block at most four seconds
ahead is not held back at all. -/
theorem C76_delay {s : AState} (hre : Reachable defaultApp s) (i : Nat) (b : Blk) (t t' : Int)
    (ha : s.apps[i]? = some ⟨b, .delaying t t'⟩) :
    t' ≤ s.now + 60 * second ∧ ((b.timestamp.toNat : Int) * 1000000 ≤ s.now + 4 * second →
      step defaultApp s (.delayDone i) = some { s with apps := s.apps.set i ⟨b, .queued⟩ }) :=
  ⟨(punctual_reachable hre _ (mem_of_getElem? ha) t t' rfl).2, C75_released hre i b t t' ha⟩

/-- C76: with default options one sync round asks for at least one and at most 500 blocks. -/
theorem C76_batch (e : PeerConn.SyncEnv) (synced : Bool) (headID : Bytes) (start : UInt64) (n : UInt32)
    (h : PeerConn.Call.peerBlocks headID start n ∈ (PeerConn.requestSyncBlocks .default e synced).calls) :
    1 ≤ n.toNat ∧ n.toNat ≤ 500 ∧
      ∃ head, e.peerHead = .ok (headID, head) ∧ n.toNat = min (head.toNat - e.lib.height.toNat) 500 := by
  have e1 : PeerConn.Opts.default.batch.toNat = 500 := rfl
  obtain ⟨head, h1, h2, h3⟩ := C39_count .default (by rw [e1]; decide) e synced headID start n h
  rw [e1] at h2 h3
  exact ⟨h3 (by decide), by omega, head, h1, h2⟩

/-- C76: with default options a session counts as synced after a fetch iff the last block received is less than five
below the peer's head (for a peer that sends no block above its own head). -/
theorem C76_synced (e : PeerConn.SyncEnv) (synced : Bool) (headID : Bytes) (head : UInt64)
    (hw : KP2P.Spec.PeerConn.Wanted e headID head) (hok : (PeerConn.requestSyncBlocks .default e synced).out = .ok) :
    ∃ s n bs b hd, PeerConn.Call.peerBlocks headID s n ∈ (PeerConn.requestSyncBlocks .default e synced).calls ∧
      e.blocks headID s n = .ok bs ∧ bs.getLast? = some b ∧ b.header = some hd ∧
      (hd.height.toNat ≤ head.toNat →
        ((PeerConn.requestSyncBlocks .default e synced).synced = true ↔ head.toNat < hd.height.toNat + 5)) := by
  obtain ⟨s, n, bs, b, hd, h1, h2, h3, h4, h5⟩ := C42_after_fetch .default e synced headID head hw hok
  refine ⟨s, n, bs, b, hd, h1, h2, h3, h4, fun hle => ?_⟩
  rw [h5, if_pos hle]
  have e1 : PeerConn.Opts.default.delta.toNat = 5 := rfl
  rw [e1]
  omega

example : Reachable defaultApp exS1 := exS1_reachable

example : ∃ s, App.run defaultApp exS0 [.applyBlock exTen, .newBlock 0, .tryBlock 0] = some s ∧
    s.apps[0]? = some ⟨exTen, .delaying 6000000000 60000000000⟩ := ⟨_, rfl, by decide +kernel⟩

end KP2P

import Verif.Proof.SubmitWindow
import Verif.Props.Applicator
/-!
# C10: the irreversible height between the comparison and the call of the chain
-/

namespace KP2P
open Window

/-- C10 (partial: the height is compared before the call, not at the call): for every block that is sent to the chain
the worker has found its height above the irreversible height known at that moment, once for every sending, and only
reports of irreversibility that were handled in between can have made it irreversible. -/
theorem C10_compared_partial {o : AppOpts} {highest lib : UInt64} {now : Time} {ls : List Window.Label}
    {s s' : Window.State} {b : Blk} (hr : Window.run o (Window.init highest lib now) ls = some s)
    (hst : Window.step o s (.send b) = some s') :
    s'.sent = (b, s.app.lib) :: s.sent ∧ ∃ p i q s1, ls = p ++ .app (.work i) :: q ∧
      Window.run o (Window.init highest lib now) p = some s1 ∧ s1.app.apps[i]? = some ⟨b, .queued⟩ ∧
      s1.app.lib < b.height ∧ .send b ∉ q ∧
      (b.height ≤ s.app.lib → ∃ heads n, .app (.forkHeads heads n) ∈ q ∧ b.height ≤ n) := by
  obtain ⟨hb, rfl⟩ := Window.step_send hst
  obtain ⟨p, i, q, s1, h1, h2, h3, h4, h5, h6⟩ :=
    Window.ready_origin (Window.winv_init o highest lib now) rfl ls s hr b hb
  refine ⟨rfl, p, i, q, s1, h1, h2, h3, h4, h5, fun hle => ?_⟩
  rcases h6 with h6 | ⟨heads, h6⟩
  · rw [h6] at hle
    exact absurd h4 (UInt64.not_lt.2 hle)
  · exact ⟨heads, _, h6, hle⟩

/-- C10: a verdict comes only after the block was sent: nothing is between comparison and call any more. -/
theorem C10_verdict_after_call {o : AppOpts} {s s' : Window.State} {i : Nat} {a : BApp} {e : Option Err}
    (ha : s.app.apps[i]? = some a) (hst : Window.step o s (.app (.rpcReturn i e)) = some s') : a.blk ∉ s.ready := by
  obtain ⟨he, _⟩ := Window.step_app hst
  simpa [Window.early, ha] using he

/-- The block is compared with the irreversible height 5, then 11 becomes irreversible, then the block of height 11 is
sent. -/
def exWindow : List Window.Label :=
  [.app (.applyBlock exP), .app (.newBlock 0), .app (.tryBlock 0), .app (.work 0), .app (.forkHeads [] 11), .send exP]

/-- C10 is false as stated: a block is sent to the chain although the applicator knows that its height is
irreversible. -/
theorem C10_race_refuted : ¬ ∀ (o : AppOpts) (highest lib : UInt64) (now : Time) (ls : List Window.Label)
    (s : Window.State), Window.run o (Window.init highest lib now) ls = some s →
    ∀ b known, (b, known) ∈ s.sent → known < b.height := by
  intro h
  have hr : ∃ s, Window.run exO (Window.init 10 5 0) exWindow = some s ∧ s.sent = [(exP, 11)] :=
    ⟨_, rfl, by decide +kernel⟩
  obtain ⟨s, hs, hsent⟩ := hr
  exact absurd (h exO 10 5 0 exWindow s hs exP 11 (by rw [hsent]; exact List.mem_singleton.2 rfl)) (by decide)

/-- The hypotheses of `C10_compared_partial` are met, with a report in between. -/
example : ∃ s s', Window.run exO (Window.init 10 5 0) (exWindow.take 5) = some s ∧
    Window.step exO s (.send exP) = some s' ∧ exP.height ≤ s.app.lib := ⟨_, _, rfl, rfl, by decide +kernel⟩

/-- And a verdict after the call. -/
example : ∃ s s', Window.run exO (Window.init 10 5 0) exWindow = some s ∧
    Window.step exO s (.app (.rpcReturn 0 none)) = some s' ∧ s.app.apps[0]? = some ⟨exP, .inRPC⟩ :=
  ⟨_, _, rfl, rfl, by decide +kernel⟩

end KP2P

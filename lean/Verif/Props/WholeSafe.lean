import Verif.Props.WholeRuns
import Verif.Props.CatchUp
import Verif.Props.Flood
/-!
# C145, C146: what nodes pass on, and what they report, in a whole network
-/

namespace KP2P
open KP2P.Whole KP2P.Spec.Whole
open KP2P.Flood (Net Packet)

variable {n : Net} {o : AppOpts}

namespace Whole

/-! ## The network -/

/-- What is known of messages and of the log. -/
structure Sends (n : Net) (s : Flood.State) : Prop where
  judging : ∀ p ∈ s.judging, p.msg.sender ≠ p.dest
  sent : ∀ v w d, n.honest v = true → Flood.Obs.sent v w d ∈ s.log →
    (∃ b, Flood.Obs.published v b ∈ s.log ∧ d = n.encode b) ∨ ∃ b, Flood.Obs.applied v b none ∈ s.log ∧ n.decode d = .ok b
  reported : ∀ v q e, Flood.Obs.reported v q e ∈ s.log → e.is .deserialization = true ∨
    ∃ b x, Flood.Obs.applied v b (some x) ∈ s.log ∧ e = wrapS .blockApplication x

theorem accept_applied (env : GossipValidate.Env RawBlock) (m : GossipValidate.Msg) (answer : Option Err) (ha : env.apply = fun _ => answer)
    (hs : m.sender ≠ env.me) (h : (GossipValidate.validateBlock env m).accept = true) :
    answer = none ∧ ∃ b, env.decode m.data = .ok b ∧ (GossipValidate.validateBlock env m).applied = [b] := by
  rw [applied_eq]
  unfold GossipValidate.validateBlock at h
  split at h
  · rename_i bs he
    rw [he]
    unfold GossipValidate.applyBlock at he
    split at he
    · cases he
    rename_i b hb
    rw [if_neg hs] at he
    repeat' (split at he)
    all_goals first | (cases he; done) | skip
    rename_i hn
    rw [ha] at hn
    cases he
    exact ⟨hn, b, hb, rfl⟩
  · split at h <;> cases h

theorem report_cause (env : GossipValidate.Env RawBlock) (m : GossipValidate.Msg) (answer : Option Err) (ha : env.apply = fun _ => answer)
    (q : Bytes) (e : Err) (h : (GossipValidate.validateBlock env m).report = some (q, e)) : e.is .deserialization = true ∨
    ∃ b x, b ∈ (GossipValidate.validateBlock env m).applied ∧ answer = some x ∧ e = wrapS .blockApplication x := by
  rw [applied_eq]
  unfold GossipValidate.validateBlock at h
  split at h
  · cases h
  rename_i bs y he
  split at h
  · cases h
  rename_i hni
  simp only [Option.some.injEq, Prod.mk.injEq] at h
  obtain ⟨-, rfl⟩ := h
  rw [he]
  unfold GossipValidate.applyBlock at he
  repeat' (split at he)
  all_goals first | (cases he; done) | skip
  all_goals cases he
  · left; simp [wrapS, Err.is]
  · left; simp [noteS, Err.is]
  · left; simp [noteS, Err.is]
  · left; simp [noteS, Err.is]
  · simp [Err.is] at hni
  · rename_i x hx
    rw [ha] at hx
    exact Or.inr ⟨_, x, List.mem_singleton_self _, hx, rfl⟩

theorem sends_step {s s' : Flood.State} {l : Flood.Label} (hs : Sends n s) (h : Flood.FTr n s l s') : Sends n s' := by
  have log := Flood.log_step s s' l h
  have old_s : ∀ v w d, n.honest v = true → Flood.Obs.sent v w d ∈ s.log →
      (∃ b, Flood.Obs.published v b ∈ s'.log ∧ d = n.encode b) ∨ ∃ b, Flood.Obs.applied v b none ∈ s'.log ∧ n.decode d = .ok b := by
    intro v w d hv hd
    rcases hs.sent v w d hv hd with ⟨b, h1, h2⟩ | ⟨b, h1, h2⟩
    · exact Or.inl ⟨b, log _ h1, h2⟩
    · exact Or.inr ⟨b, log _ h1, h2⟩
  have old_r : ∀ v q e, Flood.Obs.reported v q e ∈ s.log → e.is .deserialization = true ∨
      ∃ b x, Flood.Obs.applied v b (some x) ∈ s'.log ∧ e = wrapS .blockApplication x := by
    intro v q e he
    rcases hs.reported v q e he with h1 | ⟨b, x, h1, h2⟩
    · exact Or.inl h1
    · exact Or.inr ⟨b, x, log _ h1, h2⟩
  cases h with
  | again v b hv hm => exact ⟨hs.judging, fun v w d hv hd => old_s v w d hv (by simpa using hd), fun v q e he => old_r v q e (by simpa using he)⟩
  | publish v b m hm hv hn =>
    subst hm
    refine ⟨hs.judging, fun u w d hu hd => ?_, fun v q e he => old_r v q e (by simpa using he)⟩
    · simp only [List.mem_append, List.mem_map, List.mem_cons] at hd
      rcases hd with ⟨y, _, hd⟩ | hd | hd
      · cases hd; exact Or.inl ⟨b, by simp, rfl⟩
      · cases hd
      · exact old_s u w d hu hd
  | lost i p hi hc => exact ⟨hs.judging, hs.sent, hs.reported⟩
  | full => exact ⟨hs.judging, hs.sent, hs.reported⟩
  | forget => exact ⟨hs.judging, hs.sent, hs.reported⟩
  | arrive i p hi hd ho hn =>
    refine ⟨fun q hq => ?_, hs.sent, hs.reported⟩
    rcases List.mem_append.1 hq with hq | hq
    · exact hs.judging q hq
    · simp only [List.mem_singleton] at hq; subst hq; exact ho
  | judge i lib answer p r ws hi hr hw =>
    have hin := List.mem_of_getElem? hi
    refine ⟨fun q hq => hs.judging q (List.mem_of_mem_eraseIdx hq), fun u w d hu hd => ?_, fun u q e he => ?_⟩
    · simp only [List.mem_append, List.mem_map, List.mem_cons] at hd
      rcases hd with (⟨y, hy, hd⟩ | ⟨_, _, hd⟩) | hd | ⟨_, _, hd⟩ | hd
      · cases hd
        have hacc : r.accept = true := by
          rw [hw] at hy
          split at hy
          · assumption
          · cases hy
        obtain ⟨h1, b, h2, h3⟩ := accept_applied _ p.msg answer rfl (hs.judging p hin) (by rw [← hr]; exact hacc)
        rw [← hr] at h3
        exact Or.inr ⟨b, by simp [h3, h1], h2⟩
      · cases hd
      · cases hd
      · cases hd
      · exact old_s u w d hu hd
    · simp only [List.mem_append, List.mem_map, List.mem_cons] at he
      rcases he with (⟨_, _, he⟩ | ⟨x, hx, he⟩) | he | ⟨_, _, he⟩ | he
      · cases he
      · cases he
        have hx : r.report = some (x.1, x.2) := by simpa using hx
        rcases report_cause _ p.msg answer rfl x.1 x.2 (by rw [← hr]; exact hx) with h1 | ⟨b, y, h1, h2, h3⟩
        · exact Or.inl h1
        · rw [← hr] at h1
          exact Or.inr ⟨b, y, by simp [h1, h2], h3⟩
      · cases he
      · cases he
      · exact old_r u q e he
  | inject p h1 h2 h3 =>
    refine ⟨hs.judging, fun u w d hu hd => ?_, fun v q e he => old_r v q e (by simpa using he)⟩
    · rcases List.mem_cons.1 hd with hd | hd
      · cases hd; rw [h1] at hu; cases hu
      · exact old_s u w d hu hd

/-! ## Runs -/

/-- What holds of the states of runs. -/
structure Sound (n : Net) (o : AppOpts) (s : State) : Prop where
  nodes : ∀ v, n.honest v = true → Link.Reach o (fun _ _ => True) (s.node v)
  inv : WInv n s
  sends : Sends n s.net

theorem sound_run (nodes : Bytes → Link.State) (hf : ∀ v, n.honest v = true → Fresh (nodes v)) (ls : List Label) (s : State)
    (hr : run n o (init nodes) ls = some s) : Sound n o s := by
  have key : ∀ ls s0, Sound n o s0 → run n o s0 ls = some s → Sound n o s := by
    intro ls
    induction ls with
    | nil => intro s0 h hr; cases hr; exact h
    | cons l ls ih =>
      intro s0 h hr
      simp only [run] at hr
      split at hr
      · rename_i s1 h1
        have ht := tr_of_step h1
        refine ih s1 ⟨fun v hv => .step (h.nodes v hv) trivial (node_step v ht), winv_step h.inv (fun v hv => ?_) ht, ?_⟩ hr
        · have := Link.reach_app (h.nodes v hv)
          exact ⟨App.inv_reachable this, App.prov_reachable this⟩
        · rcases net_step ht with h2 | ⟨h2, _⟩
          · exact sends_step h.sends h2
          · rw [h2]; exact h.sends
      · cases hr
  refine key ls _ ⟨fun v hv => ?_, ?_, ?_⟩ hr
  · obtain ⟨hi, lib, now, known, h1, h2⟩ := hf v hv
    show Link.Reach _ _ (nodes v)
    rw [h2]; exact .init hi lib now known h1
  · exact ⟨fun _ h => (by cases h), fun _ h => (by cases h), fun _ _ _ h => (by cases h), fun _ _ h => (by cases h)⟩
  · exact ⟨fun _ h => (by cases h), fun _ _ _ _ h => (by cases h), fun _ _ _ h => (by cases h)⟩

end Whole

/-! ## C145 -/

/-- C145 (in part). What a node sends by gossip is a block that its chain has accepted before it was published, or one for which a call of its
applicator has succeeded; then, unless an application of a block of that id was given up as being of the future, its chain has accepted a block of that id. -/
theorem C145_id_partial (nodes : Bytes → Link.State) (hf : ∀ v, n.honest v = true → Fresh (nodes v)) (ls : List Label) (s : State)
    (hr : run n o (init nodes) ls = some s) (v w d : Bytes) (hv : n.honest v = true) (hs : Flood.Obs.sent v w d ∈ s.net.log)
    (hd : ∀ b k k', n.decode d = .ok b → b.toBlk = some k → Obs.delayTimeout k' ∈ (s.node v).app.log → k'.id ≠ k.id) :
    (∃ b, d = n.encode b ∧ Link.Has (s.node v) (str b.id)) ∨ ∃ b k, n.decode d = .ok b ∧ b.toBlk = some k ∧ Link.Has (s.node v) k.id := by
  have hg := sound_run nodes hf ls s hr
  rcases hg.sends.sent v w d hv hs with ⟨b, h1, h2⟩ | ⟨b, h1, h2⟩
  · exact Or.inl ⟨b, h2, (hg.inv.published v b h1).2⟩
  · obtain ⟨_, k, r, h3, h4, h5⟩ := hg.inv.applied v b none h1
    exact Or.inr ⟨b, k, h2, h3, C132_success_partial (hg.nodes v hv) r k h4 h5 (fun k' hk' => hd b k k' h2 h3 hk')⟩

/-- C145 (in part). If, moreover, the applicator was given no other block of that id, the chain has judged exactly this block, and accepted it. -/
theorem C145_judged_partial (nodes : Bytes → Link.State) (hf : ∀ v, n.honest v = true → Fresh (nodes v)) (ls : List Label) (s : State)
    (hr : run n o (init nodes) ls = some s) (v w d : Bytes) (hv : n.honest v = true) (hs : Flood.Obs.sent v w d ∈ s.net.log)
    (hd : ∀ b k, n.decode d = .ok b → b.toBlk = some k → Link.OnlyOne (s.node v).app.log k ∧ Obs.delayTimeout k ∉ (s.node v).app.log) :
    (∃ b, d = n.encode b ∧ Link.Has (s.node v) (str b.id)) ∨
    ∃ b k, n.decode d = .ok b ∧ b.toBlk = some k ∧ Obs.verdict k none ∈ (s.node v).app.log ∧ Link.Has (s.node v) k.id := by
  have hg := sound_run nodes hf ls s hr
  rcases hg.sends.sent v w d hv hs with ⟨b, h1, h2⟩ | ⟨b, h1, h2⟩
  · exact Or.inl ⟨b, h2, (hg.inv.published v b h1).2⟩
  · obtain ⟨_, k, r, h3, h4, h5⟩ := hg.inv.applied v b none h1
    obtain ⟨hone, hnt⟩ := hd b k h2 h3
    have hp := App.prov_reachable (Link.reach_app (hg.nodes v hv))
    have h6 : Obs.answer r none ∈ (s.node v).app.log := by
      rcases h5 with h5 | h5
      · rcases hp.good _ h5 with h6 | h6
        · exact h6
        · cases h6
      · obtain ⟨_, y, _, hy⟩ := hp.good _ h5
        cases hy
    rcases C15_own_verdict_partial (Link.reach_app (hg.nodes v hv)) r k none h4 h6 (fun r' b' hb' hid => hone b' ⟨r', hb'⟩ hid) with h7 | h7 | h7
    · exact Or.inr ⟨b, k, h2, h3, h7.1, Link.verdict_has (hg.nodes v hv) k h7.1⟩
    · exact absurd h7.2 hnt
    · simp at h7

/-! ## C146 -/

/-- C146 (in part). When a node reports another for a message that can be read, it had handed the block of the message to its applicator, and if the
applicator was given no other block of that id, then its own chain has refused exactly this block, or the applicator had no place for it or could not
use it, or the fork watchdog refused it, or the node had to wait too long. -/
theorem C146_reasons_partial (nodes : Bytes → Link.State) (hf : ∀ v, n.honest v = true → Fresh (nodes v)) (ls : List Label) (s : State)
    (hr : run n o (init nodes) ls = some s) (v q : Bytes) (e : Err) (hs : Flood.Obs.reported v q e ∈ s.net.log) :
    e.is .deserialization = true ∨ ∃ b k x, Flood.Obs.applied v b (some x) ∈ s.net.log ∧ e = wrapS .blockApplication x ∧ b.toBlk = some k ∧
      (Link.OnlyOne (s.node v).app.log k → Obs.verdict k (some x) ∈ (s.node v).app.log ∨
        x ∈ [Err.sentinel .maxHeight, .sentinel .maxPendingBlocks, .sentinel .blockIrreversibility, .sentinel .blockApplicationTimeout] ∨
        ∃ r, Obs.call r k ∈ (s.node v).app.log ∧ Obs.refused r (some x) ∈ (s.node v).app.log) := by
  have hg := sound_run nodes hf ls s hr
  rcases hg.sends.reported v q e hs with h1 | ⟨b, x, h1, h2⟩
  · exact Or.inl h1
  · obtain ⟨hv, k, r, h3, h4, h5⟩ := hg.inv.applied v b _ h1
    refine Or.inr ⟨b, k, x, h1, h2, h3, fun hone => ?_⟩
    have hreach := Link.reach_app (hg.nodes v hv)
    have hp := App.prov_reachable hreach
    rcases h5 with h5 | h5
    · rcases hp.good _ h5 with h6 | h6
      · rcases C15_own_verdict_partial hreach r k _ h4 h6 (fun r' b' hb' hid => hone b' ⟨r', hb'⟩ hid) with h7 | h7 | h7
        · exact Or.inl h7.1
        · cases h7.1
        · right; left
          simp only [List.mem_cons, Option.some.injEq, List.not_mem_nil, or_false] at h7 ⊢
          tauto
      · cases h6; right; left; simp
    · exact Or.inr (Or.inr ⟨r, h4, h5⟩)

/-! ## Where C145 and C146 fail -/

namespace Whole

/-- A run of the whole network is one of the network. -/
theorem run_net (ls : List Label) (s0 s : State) (h : run n o s0 ls = some s) :
    ∃ fs, Flood.run n s0.net fs = some s.net ∧ ∀ v id, Flood.Label.forget v id ∈ fs → .forget v id ∈ ls := by
  induction ls generalizing s0 with
  | nil => cases h; exact ⟨[], rfl, fun _ _ h => (by cases h)⟩
  | cons l ls ih =>
    simp only [run] at h
    split at h
    · rename_i s1 h1
      obtain ⟨fs, hfs, hfo⟩ := ih s1 h
      have keep : ∀ v id, Flood.Label.forget v id ∈ fs → .forget v id ∈ l :: ls := fun v id h => List.mem_cons_of_mem _ (hfo v id h)
      have one : ∀ fl, Flood.step n s0.net fl = some s1.net → (∀ v id, fl = .forget v id → l = .forget v id) →
          ∃ fs, Flood.run n s0.net fs = some s.net ∧ ∀ v id, Flood.Label.forget v id ∈ fs → .forget v id ∈ l :: ls := by
        intro fl hfl hl
        refine ⟨fl :: fs, by simp only [Flood.run, hfl]; exact hfs, fun v id h => ?_⟩
        rcases List.mem_cons.1 h with h | h
        · rw [hl v id h.symm]; exact List.mem_cons_self ..
        · exact keep v id h
      cases tr_of_step h1 with
      | node => exact ⟨fs, hfs, keep⟩
      | submit => exact ⟨fs, hfs, keep⟩
      | publish v b x hb hx => exact one _ hx fun _ _ h => (by cases h)
      | arrive i x hx => exact one _ hx fun _ _ h => (by cases h)
      | inject p x hx => exact one _ hx fun _ _ h => (by cases h)
      | forget v id x hj hx => exact one _ hx fun _ _ h => (by cases h; rfl)
      | answered i lib p c e x hi hc he hx => exact one _ hx fun _ _ h => (by cases h)
      | early i lib p x hi hc hh hx => exact one _ hx fun _ _ h => (by cases h)
    · cases h

theorem run_append (ls ms : List Label) (s0 : State) : run n o s0 (ls ++ ms) = (run n o s0 ls).bind fun s => run n o s ms := by
  induction ls generalizing s0 with
  | nil => rfl
  | cons l ls ih =>
    simp only [List.cons_append, run]
    split
    · exact ih _
    · rfl

/-- Somebody else's block with the id of `wA`. -/
def wF : RawBlock := { id := some [0], header := some { previous := some [9], height := 10, timestamp := 0, signer := some [7] } }
/-- A block of the far future. -/
def wU : RawBlock := { id := some [5], header := some { previous := some [9], height := 10, timestamp := 600000, signer := none } }

def wbF : Blk := ⟨[0], [9], 10, 0, [7], []⟩
def wbU : Blk := ⟨[5], [9], 10, 600000, [], []⟩

/-- Three nodes in a row; `wU` has two encodings. -/
def wnet' : Net where
  honest v := decide (v ∈ [[1], [2], [3]])
  adj v := if v = [2] then [[1], [3]] else [[2]]
  encode b := if b = wA then [1] else if b = wF then [3] else if b = wU then [5] else []
  decode x := if x = [1] then .ok wA else if x = [3] then .ok wF else if x = [5] ∨ x = [6] then .ok wU else .error (.other 0)
  sha := id
  room := 1024

/-- What somebody who does not run this code sends to node 2. -/
def wpkt (d : Bytes) : Packet := ⟨[4], [2], { data := d, sender := [4], receivedFrom := [4], key := [4] }⟩

/-- Node 2 gets a block of the future, and gives up waiting after three seconds; 55 seconds later it gets the same block in another encoding. Its
neighbour 3 gets it from node 2. -/
def wFuture : List Label :=
  [.inject (wpkt [5]), .arrive 0, .submit 0 0, .node [2] (.act (.newBlock 0)), .node [2] (.act (.tryBlock 0)), .node [2] (.act (.tick 3000000000)),
   .node [2] (.act (.callerTimesOut 0)), .finish 0 0, .node [2] (.act (.tick 55000000000)),
   .inject (wpkt [6]), .arrive 0, .submit 0 0, .node [2] (.act (.newBlock 0)), .node [2] (.act (.tick 2000000000)), .node [2] (.act (.delayTimeout 0)),
   .node [2] (.act (.status 0)), .node [2] (.act (.callerReturns 1)), .finish 0 0,
   .arrive 1, .submit 0 0, .node [3] (.act (.newBlock 0)), .node [3] (.act (.tryBlock 0)), .node [3] (.act (.tick 3000000000)),
   .node [3] (.act (.callerTimesOut 0)), .finish 0 0]

/-- Node 2 gets the forged block while its chain is busy with the good one. -/
def wForged : List Label :=
  [.node [1] (.accept [0] [9] 10), .publish [1] wA, .arrive 0, .submit 0 0, .node [2] (.act (.newBlock 0)), .node [2] (.act (.tryBlock 0)),
   .node [2] (.act (.work 0)), .inject (wpkt [3]), .arrive 0, .submit 1 0, .node [2] (.act (.newBlock 0)), .node [2] (.accept [0] [9] 10),
   .node [2] (.act (.rpcReturn 0 none)), .node [2] (.act (.status 0)), .node [2] (.act (.callerReturns 0)), .node [2] (.act (.callerReturns 1)),
   .finish 1 0, .finish 0 0]

/-- Node 2 gets the forged block first. -/
def wBlamed : List Label :=
  [.node [1] (.accept [0] [9] 10), .publish [1] wA, .inject (wpkt [3]), .arrive 1, .submit 0 0, .node [2] (.act (.newBlock 0)), .node [2] (.act (.tryBlock 0)),
   .node [2] (.act (.work 0)), .arrive 0, .submit 1 0, .node [2] (.act (.newBlock 0)), .node [2] (.act (.rpcReturn 0 (some (.sentinel .blockApplication)))),
   .node [2] (.act (.status 0)), .node [2] (.act (.callerReturns 0)), .node [2] (.act (.callerReturns 1)), .finish 1 0, .finish 0 0,
   .node [2] (.accept [0] [9] 10), .publish [2] wA]
def wY (ls : List Label) : State := (run wnet' {} w0 ls).getD w0

theorem wY_run (ls : List Label) (h : (run wnet' {} w0 ls).isSome = true) : run wnet' {} w0 ls = some (wY ls) := by
  obtain ⟨s, hs⟩ := Option.isSome_iff_exists.1 h
  unfold wY; rw [hs]; rfl

theorem w0_fresh (v : Bytes) : Fresh (w0.node v) := ⟨9, 0, 0, [([9], 9)], by simp, rfl⟩

end Whole

/-- C145 fails for blocks of the future: whoever sends a node such a block, and 55 seconds later the same block in another encoding, makes it pass
the block on, although its chain was never asked about it; and its neighbour, which gives up waiting after three seconds, reports the node. (The times are
the default settings.) -/
theorem C145_future_refuted : ∃ (n : Net) (nodes : Bytes → Link.State) (ls : List Label) (s : State) (u v w d : Bytes) (b : RawBlock) (k : Blk) (e : Err),
    (∀ v, Fresh (nodes v)) ∧ run n {} (init nodes) ls = some s ∧ n.honest v = true ∧ n.honest w = true ∧ n.honest u = false ∧
    Flood.Obs.sent u v d ∈ s.net.log ∧ n.decode d = .ok b ∧ b.toBlk = some k ∧
    Flood.Obs.sent v w d ∈ s.net.log ∧ ¬ Link.Has (s.node v) k.id ∧ Obs.submit k ∉ (s.node v).app.log ∧ Flood.Obs.reported w v e ∈ s.net.log :=
  ⟨wnet', _, wFuture, wY wFuture, [4], [2], [3], [6], wU, wbU, wrapS .blockApplication (.sentinel .blockApplicationTimeout), w0_fresh,
    wY_run _ (by decide +kernel), by decide, by decide, by decide, by decide +kernel, rfl, rfl, by decide +kernel, by decide +kernel, by decide +kernel,
    by decide +kernel⟩

/-- C145 fails for forged blocks: what has the id of a block that the chain is about to accept is passed on, although the chain was never asked about it. -/
theorem C145_forged_refuted : ∃ (n : Net) (nodes : Bytes → Link.State) (ls : List Label) (s : State) (u v w d : Bytes) (b : RawBlock) (k : Blk),
    (∀ v, Fresh (nodes v)) ∧ run n {} (init nodes) ls = some s ∧ n.honest v = true ∧ n.honest u = false ∧
    Flood.Obs.sent u v d ∈ s.net.log ∧ n.decode d = .ok b ∧ b.toBlk = some k ∧ Flood.Obs.sent v w d ∈ s.net.log ∧
    Obs.submit k ∉ (s.node v).app.log ∧ ∀ k', Obs.delayTimeout k' ∉ (s.node v).app.log := by
  refine ⟨wnet', _, wForged, wY wForged, [4], [2], [3], [3], wF, wbF, w0_fresh,
    wY_run _ (by decide +kernel), by decide, by decide, by decide +kernel, rfl, rfl, by decide +kernel, by decide +kernel, fun k' h => ?_⟩
  have : ((wY wForged).node [2]).app.log.all (fun | .delayTimeout _ => false | _ => true) = true := by decide +kernel
  exact absurd (List.all_eq_true.1 this _ h) (by simp)

/-- C146 fails if somebody forges a block: who sends a node another block with the same id before the good one makes it report the honest node
that the good block comes from, although its chain was not asked about that block; and although its chain accepts it later, and the node publishes it, the
node sends it to nobody until it forgets that it has seen the message. -/
theorem C146_forged_refuted : ∃ (n : Net) (nodes : Bytes → Link.State) (ls : List Label) (s : State) (u v : Bytes) (b : RawBlock) (k : Blk) (e : Err),
    (∀ v, Fresh (nodes v)) ∧ run n {} (init nodes) ls = some s ∧ n.honest u = true ∧ n.honest v = true ∧ b.toBlk = some k ∧
    Flood.Obs.published u b ∈ s.net.log ∧ Flood.Obs.reported v u e ∈ s.net.log ∧ Obs.submit k ∉ (s.node v).app.log ∧
    Link.Has (s.node v) k.id ∧ Flood.Obs.published v b ∈ s.net.log ∧ n.adj v ≠ [] ∧
    ∀ ls' s', .forget v (Flood.msgID n (n.encode b)) ∉ ls' → run n {} s ls' = some s' → ∀ w, Spec.Flood.sendings v w (n.encode b) s'.net.log = 0 := by
  have hrun := wY_run wBlamed (by decide +kernel)
  refine ⟨wnet', _, wBlamed, wY wBlamed, [1], [2], wA, wbA, wrapS .blockApplication (.sentinel .blockApplication), w0_fresh,
    hrun, by decide, by decide, rfl, by decide +kernel, by decide +kernel, by decide +kernel, by decide +kernel, by decide +kernel, by decide, ?_⟩
  intro ls' s' hl hr w
  obtain ⟨fs, hfs, hfo⟩ := run_net (wBlamed ++ ls') w0 s' (by rw [run_append, hrun]; exact hr)
  obtain ⟨gs, hgs, _⟩ := run_net ls' _ s' hr
  refine C143_never_sent_partial fs s'.net hfs [2] (by decide) (by decide) _ (fun h => (List.mem_append.1 (hfo _ _ h)).elim (by simp [wBlamed]) hl) ?_ w
  have hlog : ∀ gs x, Flood.run wnet' x gs = some s'.net → Flood.Obs.judged [2] (wnet'.encode wA) false ∈ x.log →
      Flood.Obs.judged [2] (wnet'.encode wA) false ∈ s'.net.log := by
    intro gs
    induction gs with
    | nil => intro x hx h; cases hx; exact h
    | cons l gs ih =>
      intro x hx h
      simp only [Flood.run] at hx
      split at hx
      · rename_i y hy
        exact ih y hx (Flood.log_step _ _ _ (Flood.ftr_of_step _ _ _ hy) _ h)
      · cases hx
  exact hlog gs _ hgs (by decide +kernel)

namespace Whole

/-- The assumptions of C145 and C146 hold, and nodes pass on and report. -/
example : ∃ s, run wnet' {} w0 wForged = some s ∧ Flood.Obs.sent [2] [3] [1] ∈ s.net.log ∧
    ∀ k', Obs.delayTimeout k' ∈ (s.node [2]).app.log → k'.id ≠ [0] := by
  refine ⟨wY wForged, wY_run _ (by decide +kernel), by decide +kernel, fun k' h => ?_⟩
  have : ((wY wForged).node [2]).app.log.all (fun | .delayTimeout _ => false | _ => true) = true := by decide +kernel
  exact absurd (List.all_eq_true.1 this _ h) (by simp)

example : Flood.Obs.sent [2] [3] [1] ∈ (wX wTwo [wbA, wbB]).net.log ∧ Link.OnlyOne ((wX wTwo [wbA, wbB]).node [2]).app.log wbA ∧
    Obs.delayTimeout wbA ∉ ((wX wTwo [wbA, wbB]).node [2]).app.log := by
  refine ⟨by decide +kernel, fun c hc hid => ?_, by decide +kernel⟩
  obtain ⟨r, hr⟩ := hc
  have : ((wX wTwo [wbA, wbB]).node [2]).app.log.all (fun | .call _ c => decide (c.id = wbA.id → c = wbA) | _ => true) = true := by decide +kernel
  have := List.all_eq_true.1 this _ hr
  simp only [decide_eq_true_eq] at this
  exact this hid

example : Link.OnlyOne ((wY wFuture).node [3]).app.log wbU ∧ ∃ e, Flood.Obs.reported [3] [2] e ∈ (wY wFuture).net.log := by
  refine ⟨fun c hc hid => ?_, wrapS .blockApplication (.sentinel .blockApplicationTimeout), by decide +kernel⟩
  obtain ⟨r, hr⟩ := hc
  have : ((wY wFuture).node [3]).app.log.all (fun | .call _ c => decide (c = wbU) | _ => true) = true := by decide +kernel
  simpa using List.all_eq_true.1 this _ hr

end Whole
end KP2P

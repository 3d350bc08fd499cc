import Verif.Props.Joint
import Verif.Props.GossipValidate
/-!
# C137: what peers have to fear from the messages they pass on
-/

namespace KP2P
open KP2P.Enforce (Obs Admitted)
open KP2P.PeerConn KP2P.Spec KP2P.Spec.Joint KP2P.Spec.Peering
open KP2P.GossipValidate (Msg Env validateBlock validateTransaction)

variable {d : Spec.Decay} {o : Opts}

/-- Validating a block objects with one of two errors. -/
private theorem block_error (env : Env RawBlock) (m : Msg) (p : Bytes) (x : Err) (h : (validateBlock env m).report = some (p, x)) :
    x.is .deserialization = true ∨ x.is .blockApplication = true := by
  simp only [validateBlock, GossipValidate.applyBlock] at h
  cases hd : env.decode m.data with
  | error y => rw [hd] at h; simp at h; exact Or.inl (by rw [← h.2]; rfl)
  | ok b =>
    rw [hd] at h
    dsimp only at h
    by_cases hs : m.sender = env.me
    · simp [hs] at h
    rw [if_neg hs] at h
    cases hi : b.id with
    | none => rw [hi] at h; simp at h; exact Or.inl (by rw [← h.2]; rfl)
    | some i =>
    rw [hi] at h
    dsimp only at h
    cases hh : b.header with
    | none => rw [hh] at h; simp at h; exact Or.inl (by rw [← h.2]; rfl)
    | some hd =>
    rw [hh] at h
    dsimp only at h
    cases hp : hd.previous with
    | none => rw [hp] at h; simp at h; exact Or.inl (by rw [← h.2]; rfl)
    | some q =>
    rw [hp] at h
    dsimp only at h
    by_cases hl : hd.height < env.lib
    · rw [if_pos hl] at h; simp at h
    rw [if_neg hl] at h
    cases ha : env.apply b with
    | none => rw [ha] at h; simp at h
    | some y => rw [ha] at h; simp at h; exact Or.inr (by rw [← h.2]; rfl)

/-- Validating a transaction objects with one of three. -/
private theorem tx_error (env : Env Tx) (m : Msg) (p : Bytes) (x : Err) (h : (validateTransaction env m).report = some (p, x)) :
    x.is .deserialization = true ∨ txRefusal x = true := by
  simp only [validateTransaction, GossipValidate.applyTransaction] at h
  cases hd : env.decode m.data with
  | error y => rw [hd] at h; simp at h; exact Or.inl (by rw [← h.2]; rfl)
  | ok t =>
    rw [hd] at h
    dsimp only at h
    by_cases hs : m.sender = env.me
    · simp [hs] at h
    rw [if_neg hs] at h
    cases hi : t.id with
    | none => rw [hi] at h; simp at h; exact Or.inl (by rw [← h.2]; rfl)
    | some i =>
    rw [hi] at h
    dsimp only at h
    cases ha : env.apply t with
    | none => rw [ha] at h; simp at h
    | some y =>
      rw [ha] at h
      dsimp only at h
      by_cases hn : y.is .invalidNonce = true
      · rw [if_pos hn] at h; simp at h; exact Or.inr (by rw [← h.2]; rfl)
      · rw [if_neg hn] at h; simp at h; exact Or.inr (by rw [← h.2]; rfl)

private theorem not_grave (x : Err) (s : Sentinel) (h : x.is s = true)
    (h1 : s ≠ .forkBomb ∧ s ≠ .chainIDMismatch ∧ s ≠ .chainNotConnected ∧ s ≠ .checkpointMismatch ∧ s ≠ .protocolMismatch) :
    grave x = false := by
  simp only [grave, Bool.or_eq_false_iff]
  obtain ⟨a, b, c, e, f⟩ := h1
  have key : ∀ t, s ≠ t → x.is t = false := fun t ht => by
    rw [← Bool.not_eq_true]; exact fun hc => ht (Err.is_unique h hc)
  exact ⟨⟨⟨⟨key _ a, key _ b⟩, key _ c⟩, key _ e⟩, key _ f⟩

/-- C137 as far as it holds: nothing a peer passes on is held against it as if it were on another chain, spoke another protocol or attacked;
no message costs more than 5000 points by default, which is a tenth of what it takes to be refused and a twentieth of what it takes to be
disconnected; a transaction that the chain refuses costs at most 100. -/
theorem C137_mild_partial (c : Conn) (x : Err) (h : Relayed c x) :
    grave x = false ∧ (getScoreForError .default x).toNat ≤ 5000 ∧ (txRefusal x = true → (getScoreForError .default x).toNat ≤ 100) := by
  have hg : grave x = false := by
    rcases h with ⟨env, m, _, h⟩ | ⟨env, m, _, h⟩
    · rcases block_error env m _ x h with h | h <;> exact not_grave x _ h (by decide)
    · rcases tx_error env m _ x h with h | h
      · exact not_grave x _ h (by decide)
      · simp only [txRefusal, Bool.or_eq_true] at h
        rcases h with h | h <;> exact not_grave x _ h (by decide)
  refine ⟨hg, UInt64.le_iff_toNat_le.1 (mild_score x hg), fun ht => ?_⟩
  exact UInt64.le_iff_toNat_le.1 (tx_score x ht)

private theorem bill_two (w : Err → Nat) (bad : Session.Label → Bool) (p : Bytes) (ls : List Joint.Label)
    (hg : ∀ c e, Joint.Label.gossip c e ∈ ls → c.peer = p → w e ≤ 5000 ∧ (txRefusal e = true → w e ≤ 100)) :
    bill w (fun l => if bad l then 5000 else 0) p ls ≤ 5000 * (occurrences bad p ls + refusedBlocks p ls) + 100 * refusedTxs p ls := by
  induction ls with
  | nil => exact Nat.zero_le _
  | cons x ls ih =>
    have ih := ih fun c e h => hg c e (List.mem_cons_of_mem _ h)
    simp only [bill, occurrences, refusedBlocks, refusedTxs, List.map_cons, List.sum_cons, List.countP_cons] at ih ⊢
    cases x with
    | gossip c e =>
      by_cases hc : c.peer = p
      · have := hg c e (List.mem_cons_self ..) hc
        cases ht : txRefusal e
        · simp [hc, ht]; omega
        · have := this.2 ht
          simp [hc, ht]; omega
      · simp [hc]; omega
    | session q k l =>
      by_cases hq : q = p <;> cases hbl : bad l <;> simp [hq, hbl] <;> omega
    | net l => simp; omega

/-- C137 as far as it holds, with the default scores: a peer that shares its hosts with nobody, is honest in all exchanges that are not
interrupted by failures that are not its own, and passes on any messages, is not refused before the blocks of it that were objected to and
the interrupted exchanges, at 5000 points each, and the refused transactions, at 100, come to 50000 points; and not disconnected before they
come to 100000. -/
theorem C137_budget_partial (hd : d.NonIncreasing) (hb0 : 0 < o.batch.toNat) (hb : o.batch.toNat < 2 ^ 32) (net p : Bytes) (t : Time)
    (ls : List Joint.Label) (s : Joint.State) (hr : Joint.run d .default o (Joint.init t) ls = some s) (bad : Session.Label → Bool)
    (hh : ∀ k l, Joint.Label.session p k l ∈ ls → HonestLabel o net l ∨ bad l = true ∧ Interrupted o net l)
    (hg : ∀ c e, Joint.Label.gossip c e ∈ ls → c.peer = p → Relayed c e) (hsole : Sole s.net.log p) (c : Conn) (hc : c.peer = p) :
    (5000 * (occurrences bad p ls + refusedBlocks p ls) + 100 * refusedTxs p ls < 50000 → ∀ u, Obs.refused c u ∉ s.net.log) ∧
      (5000 * (occurrences bad p ls + refusedBlocks p ls) + 100 * refusedTxs p ls < 100000 → Obs.closed c ∉ s.net.log) := by
  have h0 := Joint.reported_le (pts .default) (fun l => if bad l then 5000 else 0) p t ls s hr fun k l hm => by
    rcases hh k l hm with h | ⟨h1, h2⟩
    · have := honest_costs hb0 hb net (pts .default) l h
      cases l with
      | handshake e => exact fun x hx => Nat.le_trans (this x hx) (Nat.zero_le _)
      | round e => exact fun sy x hx => Nat.le_trans (this sy x hx) (Nat.zero_le _)
      | _ => trivial
    · simp only [h1, if_true]; exact interrupted_costs net l h2
  have h1 := bill_two (pts .default) bad p ls fun c e hm hc => (C137_mild_partial c e (hg c e hm hc)).2
  have hreach := Joint.net_reach t ls s hr
  refine ⟨fun hn u hm => ?_, fun hn hm => ?_⟩
  · have h1 := (joint_refused hd s.net hreach p hsole c u hm hc).1
    change 50000 ≤ _ at h1
    omega
  · have h1 := joint_closed hd s.net hreach p hsole c hm hc
    change 100000 ≤ _ at h1
    omega

/-! ### The counterexample -/

/-- A block another peer made, and the environment of a node whose chain service does not answer. -/
private def gblock : RawBlock := { id := some [9], header := some { previous := some [8], height := 5, timestamp := 0, signer := some [] } }
private def down : Env RawBlock :=
  { me := [0], decode := fun _ => .ok gblock, lib := 1, apply := fun _ => some (wrapS .localRPC (.other 0)), author := id }
private def gmsg : Msg := ⟨[], [2], hp, []⟩
private def objection : Err := wrapS .blockApplication (wrapS .localRPC (.other 0))

/-- The block is received over the connection, objected to, and the objection is charged. -/
private def passed : List Joint.Label := [.gossip hconn objection, .net (.handle 0)]

private def passes (n : Nat) : List Joint.Label :=
  [.net (.knock hp hhome), .net (.secure 0), .net (.establish 0), .net (.note 0), .session hp 0 (.handshake honHs)] ++
    (List.replicate n passed).flatten ++ [.net (.close 0)]

/-- C137 fails: our own chain service does not answer; an honest peer passes on twenty genuine blocks (complete, of another node, not below
the irreversible block), and is disconnected for it. The bound of `C137_budget_partial` is met exactly. -/
theorem C137_own_node_refuted (d : Spec.Decay) (hd : ∀ s, d 0 s = s) :
    ∃ p ls s c, Joint.run d .default hopts (Joint.init 0) ls = some s ∧
      (∀ k l, Joint.Label.session p k l ∈ ls → HonestLabel hopts [7] l) ∧
      (∀ c x, Joint.Label.gossip c x ∈ ls → c.peer = p ∧ ∃ env m b y, m.receivedFrom = p ∧ Handed env m b ∧ env.apply b = some y ∧
        y.is .localRPC = true ∧ (validateBlock env m).report = some (p, x)) ∧
      refusedBlocks p ls = 20 ∧ Sole s.net.log p ∧ Obs.closed c ∈ s.net.log ∧ c.peer = p := by
  have hfacts : ((Joint.run (fun _ s => s) .default hopts (Joint.init 0) (passes 20)).map fun s =>
      (onlyB hp s.net.log, decide (Obs.closed hconn ∈ s.net.log))) = some (true, true) := by decide +kernel
  rw [← run_still d hd (passes 20) (by decide)] at hfacts
  obtain ⟨s, hr, hs⟩ := Option.map_eq_some_iff.1 hfacts
  simp only [Prod.mk.injEq, decide_eq_true_eq] at hs
  refine ⟨hp, passes 20, s, hconn, hr, ?_, ?_, by decide +kernel, sole_of _ _ hs.1, hs.2, rfl⟩
  · intro k l hm
    simp only [passes, passed, List.mem_append, List.mem_flatten, List.mem_replicate, List.mem_cons, Joint.Label.session.injEq, reduceCtorEq,
      false_or, List.not_mem_nil, or_false] at hm
    rcases hm with ⟨_, _, rfl⟩ | ⟨x, ⟨_, rfl⟩, hm⟩
    · exact hopts_handshake
    · simp at hm
  · intro c x hm
    simp only [passes, passed, List.mem_append, List.mem_flatten, List.mem_replicate, List.mem_cons, reduceCtorEq,
      false_or, List.not_mem_nil, or_false] at hm
    obtain ⟨y, ⟨_, rfl⟩, hm⟩ := hm
    simp only [List.mem_cons, Joint.Label.gossip.injEq, reduceCtorEq, List.not_mem_nil, or_false] at hm
    obtain ⟨rfl, rfl⟩ := hm
    refine ⟨rfl, down, gmsg, gblock, _, rfl, ⟨rfl, by decide, ⟨by decide, _, rfl, by decide⟩, ?_⟩, rfl, rfl, rfl⟩
    rintro ⟨h, hh, hlt⟩
    cases hh
    exact absurd hlt (by decide)

/-- One such block (hypotheses of `C137_budget_partial`). -/
example (d : Spec.Decay) (hd : d.NonIncreasing) : ∃ s, Joint.run d .default hopts (Joint.init 0) ((passes 1).dropLast) = some s ∧
    (∃ e a sc t, Obs.charged hconn e a sc t ∈ s.net.log) ∧ Obs.closed hconn ∉ s.net.log ∧ refusedBlocks hp (passes 1).dropLast = 1 := by
  refine ⟨_, rfl, ⟨_, _, _, _, .head _⟩, ?_, rfl⟩
  refine (C137_budget_partial hd (o := hopts) (by decide) (by decide) [7] hp 0 (passes 1).dropLast _ rfl (fun _ => false) ?_ ?_
    (sole_of _ _ rfl) hconn rfl).2 (by decide)
  · intro k l hm
    simp [passes, passed] at hm
    obtain ⟨_, rfl⟩ := hm
    exact Or.inl hopts_handshake
  · intro c x hm _
    simp [passes, passed] at hm
    obtain ⟨rfl, rfl⟩ := hm
    exact Or.inl ⟨down, gmsg, rfl, rfl⟩

end KP2P

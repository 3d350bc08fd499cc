import Verif.Spec.TxFlood
import Verif.Proof.Flood
import Verif.Props.TxApplyFair
/-!
# How a transaction spreads in a network: lemmas for C148 and C149
-/

namespace KP2P
namespace TxFlood
open KP2P.Spec.TxFlood
open KP2P.GossipValidate (Msg validateTransaction applyTransaction)
open KP2P.Flood (Packet pass mem_pass erase_or For for_iff count_erase)
open KP2P.Spec.TxA (tid Shows answered)

variable {n : Net} {dur : Int}

theorem id_iff (n : Net) (a b : Bytes) : msgID n a = msgID n b ↔ n.sha a = n.sha b :=
  C55_id_iff n.sha (fun _ => []) _ _ (Or.inr rfl) (Or.inr rfl)

/-- The steps. -/
inductive Tr (n : Net) (s : State) : Label → State → Prop where
  | again (v : Bytes) (t : Tx) (hv : n.honest v = true) (hs : (v, msgID n (n.encode t)) ∈ s.seen) :
    Tr n s (.publish v t) { s with log := .published v t :: s.log }
  | publish (v : Bytes) (t : Tx) (m : Msg) (hm : m = { data := n.encode t, sender := v, receivedFrom := v, key := v })
      (hv : n.honest v = true) (hs : (v, msgID n (n.encode t)) ∉ s.seen) :
    Tr n s (.publish v t) { s with
      seen := (v, msgID n (n.encode t)) :: s.seen
      flight := s.flight ++ pass v m (n.adj v)
      log := (n.adj v).map (.sent v · (n.encode t)) ++ .published v t :: s.log }
  | lost (i : Nat) (p : Packet) (hi : s.flight[i]? = some p) 
      (h : n.honest p.dest = false ∨ p.msg.sender = p.dest ∨ (p.dest, msgID n p.msg.data) ∈ s.seen) :
    Tr n s (.arrive i) { s with flight := s.flight.eraseIdx i }
  | full (i : Nat) (p : Packet) (hi : s.flight[i]? = some p) (hd : n.honest p.dest = true) (ho : p.msg.sender ≠ p.dest)
      (hs : (p.dest, msgID n p.msg.data) ∉ s.seen) (hf : ¬ Roomy n s p.dest) :
    Tr n s (.arrive i) { s with
      seen := (p.dest, msgID n p.msg.data) :: s.seen
      flight := s.flight.eraseIdx i }
  | arrive (i : Nat) (p : Packet) (hi : s.flight[i]? = some p) (hd : n.honest p.dest = true) (ho : p.msg.sender ≠ p.dest)
      (hs : (p.dest, msgID n p.msg.data) ∉ s.seen) (hf : Roomy n s p.dest) :
    Tr n s (.arrive i) { s with
      seen := (p.dest, msgID n p.msg.data) :: s.seen
      flight := s.flight.eraseIdx i
      judging := s.judging ++ [p] }
  | inject (p : Packet) (h1 : n.honest p.source = false) (h3 : p.msg.receivedFrom = p.source)
      (h2 : n.honest p.msg.sender = false ∨ ∃ t, Obs.published p.msg.sender t ∈ s.log ∧ n.encode t = p.msg.data) :
    Tr n s (.inject p) { s with flight := s.flight ++ [p], log := .sent p.source p.dest p.msg.data :: s.log }
  | forget (v id : Bytes) (hj : ∀ p ∈ s.judging, ¬ (p.dest = v ∧ msgID n p.msg.data = id)) :
    Tr n s (.forget v id) { s with
      seen := s.seen.filter (· ≠ (v, id))
      calls := s.calls.filter fun c => !decide (c.node = v ∧ msgID n c.data = id) }
  | submit (i : Nat) (p : Packet) (t : Tx) (ts : List Tx) (x : TxA.State) (hi : s.judging[i]? = some p) (hc : callOf s p = none)
      (ht : handed n p = t :: ts) (hx : TxA.step (s.node p.dest) (.call t) = some x) :
    Tr n s (.submit i) { s with
      node := Function.update s.node p.dest x
      calls := s.calls ++ [⟨p.dest, p.msg.data, (s.node p.dest).nextReq⟩] }
  | finish (i : Nat) (p : Packet) (c : Call) (e : Option Err) (hi : s.judging[i]? = some p) (hc : callOf s p = some c)
      (he : resultOf (s.node p.dest).log c.number = some e) : Tr n s (.finish i) (judge n s i p e)
  | skip (i : Nat) (p : Packet) (hi : s.judging[i]? = some p) (hc : callOf s p = none) (ht : handed n p = []) :
    Tr n s (.finish i) (judge n s i p none)
  | node (v : Bytes) (l : TxA.Label) (x : TxA.State) (hv : n.honest v = true) (hl : isCall l = false)
      (hx : TxA.step (s.node v) l = some x) : Tr n s (.node v l) { s with node := Function.update s.node v x }

theorem authentic_published {log : List TxFlood.Obs} {m : Msg} (h : authentic n log m = true) :
    ∃ t, Obs.published m.sender t ∈ log ∧ n.encode t = m.data := by
  simp only [authentic, Bool.and_eq_true, List.any_eq_true] at h
  obtain ⟨_, o, ho, h⟩ := h
  cases o with
  | published v t =>
    simp only [decide_eq_true_eq] at h
    exact ⟨t, by rw [← h.1]; exact ho, h.2⟩
  | _ => cases h

theorem tr_of_step (s s' : State) (l : Label) (h : step n s l = some s') : Tr n s l s' := by
  cases l with
  | publish v t =>
    simp only [step] at h
    split at h
    · cases h
    rename_i hv
    have hv : n.honest v = true := by simpa using hv
    split at h
    · rename_i hs; cases h; exact .again v t hv hs
    · rename_i hs; cases h; exact .publish v t _ rfl hv hs
  | arrive i =>
    simp only [step] at h
    split at h
    · cases h
    rename_i p hi
    split at h
    · rename_i hd; cases h; exact .lost i p hi (Or.inl (by simpa using hd))
    rename_i hd
    have hd : n.honest p.dest = true := by simpa using hd
    split at h
    · rename_i ho; cases h; exact .lost i p hi (Or.inr (Or.inl ho))
    rename_i ho
    split at h
    · rename_i hs; cases h; exact .lost i p hi (Or.inr (Or.inr hs))
    rename_i hs
    split at h
    · rename_i hf; cases h; exact .full i p hi hd ho hs (Nat.not_lt.2 hf)
    · rename_i hf; cases h; exact .arrive i p hi hd ho hs (Nat.lt_of_not_le hf)
  | inject p =>
    simp only [step] at h
    split at h
    · cases h
    rename_i hc
    simp only [Bool.or_eq_true, decide_eq_true_eq, not_or, Bool.not_eq_true, not_not] at hc
    cases h
    refine .inject p hc.1.1 hc.1.2 ?_
    cases hs : n.honest p.msg.sender with
    | false => exact Or.inl rfl
    | true =>
      have ha := hc.2
      rw [hs] at ha
      exact Or.inr (authentic_published (by simpa using ha))
  | forget v id =>
    simp only [step] at h
    split at h
    · cases h
    rename_i hj
    split at h
    · cases h
      exact .forget v id fun p hp hc => hj (List.any_eq_true.2 ⟨p, hp, by simpa using hc⟩)
    · cases h
  | submit i =>
    simp only [step] at h
    split at h
    · cases h
    rename_i p hi
    split at h
    · cases h
    rename_i hc
    have hc : callOf s p = none := by simpa using hc
    split at h
    · rename_i t ts ht
      obtain ⟨x, hx, rfl⟩ := Option.map_eq_some_iff.1 h
      exact .submit i p t ts x hi hc ht hx
    · cases h
  | finish i =>
    simp only [step] at h
    split at h
    · cases h
    rename_i p hi
    split at h
    · rename_i c hc
      split at h
      · rename_i e he; cases h; exact .finish i p c e hi hc he
      · cases h
    · rename_i hc
      split at h
      · rename_i ht; cases h; exact .skip i p hi hc ht
      · cases h
  | node v l =>
    simp only [step] at h
    split at h
    · cases h
    rename_i hv
    simp only [Bool.or_eq_true, Bool.not_eq_true', not_or, Bool.not_eq_false, Bool.not_eq_true] at hv
    obtain ⟨x, hx, rfl⟩ := Option.map_eq_some_iff.1 h
    exact .node v l x hv.1 hv.2 hx

/-! ## What a step is for one node -/

/-- What the step is for the applicator of `v` (a pause if it happens elsewhere). -/
def here (n : Net) (v : Bytes) (s : State) : Label → TxA.Label
  | .node w l => if w = v then l else .tick 0
  | .submit i => match s.judging[i]? with
    | some p => if p.dest = v then match handed n p with
        | t :: _ => .call t
        | [] => .tick 0
      else .tick 0
    | none => .tick 0
  | _ => .tick 0

theorem pause (x : TxA.State) : TxA.step x (.tick 0) = some x := by simp [TxA.step]

theorem here_step {s s' : State} {l : Label} (h : Tr n s l s') (v : Bytes) :
    TxA.step (s.node v) (here n v s l) = some (s'.node v) := by
  cases h with
  | submit i p t ts x hi hc ht hx =>
    simp only [here, hi]
    by_cases hv : p.dest = v
    · subst hv; simp [ht, hx]
    · rw [if_neg hv, pause, Function.update_of_ne (Ne.symm hv)]
  | node w l x hw hl hx =>
    simp only [here]
    by_cases hv : w = v
    · subst hv; simp [hx]
    · rw [if_neg hv, pause, Function.update_of_ne (Ne.symm hv)]
  | _ => exact pause _

theorem run_snoc {a s s' : TxA.State} {l : TxA.Label} (ls : List TxA.Label) (h : TxA.run a ls = some s) (hs : TxA.step s l = some s') :
    TxA.run a (ls ++ [l]) = some s' := by
  induction ls generalizing a with
  | nil => cases h; simp [TxA.run, hs]
  | cons x xs ih =>
    simp only [TxA.run, List.cons_append] at h ⊢
    split at h
    · exact ih h
    · cases h

theorem reach_next {s s' : TxA.State} {l : TxA.Label} (h : TxA.Reachable dur s) (hs : TxA.step s l = some s') : TxA.Reachable dur s' := by
  obtain ⟨now, ls, hr⟩ := h
  exact ⟨now, ls ++ [l], run_snoc ls hr hs⟩

/-! ## Two facts about the applicator -/

/-- Each pass of a call through the cache is for its transaction; if it lets it through, a worker has it or the chain has judged it. -/
def Passed (s : TxA.State) : Prop :=
  ∀ p ∈ s.passes, ∀ r, p.req = some r → ∃ tx, p.txs = [tx] ∧ TxA.Obs.call r tx ∈ s.log ∧
    (p.count = 0 → (∃ st, (⟨r, tx, st⟩ : TxA.Job) ∈ s.jobs) ∨ ∃ e, TxA.Obs.verdict r tx e ∈ s.log)

theorem passed_step {s s' : TxA.State} (h : Passed s) (hq : TxA.ReqInv s) (he : TxA.Eff s s') : Passed s' := by
  cases he with
  | call tx =>
    intro p hp r hr
    obtain ⟨t, h1, h2, h3⟩ := h p hp r hr
    exact ⟨t, h1, List.mem_cons_of_mem _ h2, fun h0 => (h3 h0).imp id fun ⟨e, he⟩ => ⟨e, List.mem_cons_of_mem _ he⟩⟩
  | crash => exact h
  | admit i r' tx c hq' hc =>
    intro p hp r hr
    rcases List.mem_append.1 hp with hp | hp
    · obtain ⟨t, h1, h2, h3⟩ := h p hp r hr
      exact ⟨t, h1, h2, fun h0 => (h3 h0).imp (fun ⟨st, hs⟩ => ⟨st, List.mem_append_left _ hs⟩) id⟩
    · simp only [List.mem_singleton] at hp
      subst hp
      cases hr
      exact ⟨tx, rfl, hq.qcall _ (List.mem_of_getElem? hq'), fun _ => Or.inl ⟨_, List.mem_append_right _ (List.mem_singleton.2 rfl)⟩⟩
  | hit i r' tx c m hq' hc hm =>
    intro p hp r hr
    rcases List.mem_append.1 hp with hp | hp
    · obtain ⟨t, h1, h2, h3⟩ := h p hp r hr
      exact ⟨t, h1, List.mem_cons_of_mem _ h2, fun h0 => (h3 h0).imp id fun ⟨e, he⟩ => ⟨e, List.mem_cons_of_mem _ he⟩⟩
    · simp only [List.mem_singleton] at hp
      subst hp
      cases hr
      exact ⟨tx, rfl, List.mem_cons_of_mem _ (hq.qcall _ (List.mem_of_getElem? hq')), fun h0 => absurd h0 hm⟩
  | submit i r' tx hj =>
    intro p hp r hr
    obtain ⟨t, h1, h2, h3⟩ := h p hp r hr
    refine ⟨t, h1, List.mem_cons_of_mem _ h2, fun h0 => ?_⟩
    rcases h3 h0 with ⟨st, hs⟩ | ⟨e, he⟩
    · left
      have hp := (TxA.set_perm (b := (⟨r', tx, .inRPC⟩ : TxA.Job)) hj).mem_iff (a := (⟨r, t, st⟩ : TxA.Job))
      rcases erase_or hs hj with hs | hs
      · exact ⟨st, hp.2 (List.mem_cons_of_mem _ hs)⟩
      · cases hs
        exact ⟨.inRPC, (TxA.set_perm hj).mem_iff.2 (List.mem_cons_self ..)⟩
    · exact Or.inr ⟨e, List.mem_cons_of_mem _ he⟩
  | rpcReturn i r' tx e hj =>
    intro p hp r hr
    obtain ⟨t, h1, h2, h3⟩ := h p hp r hr
    refine ⟨t, h1, List.mem_cons_of_mem _ (List.mem_cons_of_mem _ h2), fun h0 => ?_⟩
    rcases h3 h0 with ⟨st, hs⟩ | ⟨e, he⟩
    · rcases erase_or hs hj with hs | hs
      · exact Or.inl ⟨st, hs⟩
      · cases hs
        exact Or.inr ⟨e, List.mem_cons_of_mem _ (List.mem_cons_self ..)⟩
    · exact Or.inr ⟨e, List.mem_cons_of_mem _ (List.mem_cons_of_mem _ he)⟩
  | broadcast txs c m hc =>
    intro p hp r hr
    rcases List.mem_append.1 hp with hp | hp
    · exact h p hp r hr
    · simp only [List.mem_singleton] at hp
      subst hp
      cases hr
  | callerReturns r' e hw ha =>
    intro p hp r hr
    obtain ⟨t, h1, h2, h3⟩ := h p hp r hr
    exact ⟨t, h1, List.mem_cons_of_mem _ h2, fun h0 => (h3 h0).imp id fun ⟨e, he⟩ => ⟨e, List.mem_cons_of_mem _ he⟩⟩
  | callerGivesUp r' e hw =>
    intro p hp r hr
    obtain ⟨t, h1, h2, h3⟩ := h p hp r hr
    exact ⟨t, h1, List.mem_cons_of_mem _ h2, fun h0 => (h3 h0).imp id fun ⟨e, he⟩ => ⟨e, List.mem_cons_of_mem _ he⟩⟩
  | tick d => exact h

theorem passed_reach {s : TxA.State} (h : TxA.Reachable dur s) : Passed s := by
  obtain ⟨now, ls, hr⟩ := h
  have : Passed s ∧ TxA.ReqInv s := by
    refine TxA.run_ind (P := fun s => Passed s ∧ TxA.ReqInv s) (fun _ _ _ h hs => ?_) ls _ s ⟨?_, TxA.reqInv_init dur now⟩ hr
    · exact ⟨passed_step h.1 h.2 (TxA.step_eff hs), TxA.reqInv_step h.2 (TxA.step_eff hs)⟩
    · intro p hp; cases hp
  exact this.1

/-- What the log and the history of the cache have, they keep. -/
theorem txa_mono {s s' : TxA.State} {l : TxA.Label} (h : TxA.step s l = some s') :
    (∀ o ∈ s.log, o ∈ s'.log) ∧ ∀ p ∈ s.passes, p ∈ s'.passes := by
  cases TxA.step_eff h with
  | call => exact ⟨fun o ho => List.mem_cons_of_mem _ ho, fun p hp => hp⟩
  | crash => exact ⟨fun o ho => ho, fun p hp => hp⟩
  | admit => exact ⟨fun o ho => ho, fun p hp => List.mem_append_left _ hp⟩
  | hit => exact ⟨fun o ho => List.mem_cons_of_mem _ ho, fun p hp => List.mem_append_left _ hp⟩
  | submit => exact ⟨fun o ho => List.mem_cons_of_mem _ ho, fun p hp => hp⟩
  | rpcReturn => exact ⟨fun o ho => List.mem_cons_of_mem _ (List.mem_cons_of_mem _ ho), fun p hp => hp⟩
  | broadcast => exact ⟨fun o ho => ho, fun p hp => List.mem_append_left _ hp⟩
  | callerReturns => exact ⟨fun o ho => List.mem_cons_of_mem _ ho, fun p hp => hp⟩
  | callerGivesUp => exact ⟨fun o ho => List.mem_cons_of_mem _ ho, fun p hp => hp⟩
  | tick => exact ⟨fun o ho => ho, fun p hp => hp⟩

/-- The first pass that shows an id does not find it. -/
theorem first_pass (hd : 0 ≤ dur) {s : TxA.State} (hr : TxA.Reachable dur s) {id : Bytes} (h : ∃ p ∈ s.passes, Shows p id) :
    ∃ p ∈ s.passes, Shows p id ∧ ∀ tx, p.txs = [tx] → p.count = 0 := by
  obtain ⟨now, ls, hr⟩ := hr
  have hc := TxA.cacheInv_run hd hr
  have key : ∀ l : List TxA.Pass, (∃ p ∈ l, Shows p id) → ∃ a q c, l = a ++ q :: c ∧ Shows q id ∧ ∀ p ∈ a, ¬ Shows p id := by
    intro l
    induction l with
    | nil => rintro ⟨p, hp, _⟩; cases hp
    | cons x xs ih =>
      intro hex
      by_cases hx : Shows x id
      · exact ⟨[], x, xs, rfl, hx, fun p hp => (by cases hp)⟩
      · obtain ⟨p, hp, hps⟩ := hex
        rcases List.mem_cons.1 hp with rfl | hp
        · exact absurd hps hx
        · obtain ⟨a, q, c, h1, h2, h3⟩ := ih ⟨p, hp, hps⟩
          refine ⟨x :: a, q, c, by rw [h1]; rfl, h2, fun p hp => ?_⟩
          rcases List.mem_cons.1 hp with rfl | hp
          · exact hx
          · exact h3 p hp
  obtain ⟨a, q, c, h1, h2, h3⟩ := key _ h
  refine ⟨q, by rw [h1]; simp, h2, fun tx htx => ?_⟩
  have hn := TxA.count_at hc h1
  obtain ⟨t, ht, hid⟩ := h2
  rw [htx] at ht hn
  simp only [List.mem_singleton] at ht
  subst ht
  rw [hid.symm] at h3
  simp only [List.map_cons, List.map_nil, Spec.present] at hn
  rw [if_neg] at hn
  · exact hn
  · rintro ⟨o, ho, g1, g2, g3⟩
    rcases TxA.history_mem ho with h6 | ⟨p', hp', h7, h8⟩
    · cases h6
    · rw [g1] at h8; exact h3 p' hp' h8

/-! ## Messages and validations -/

/-- What a validation hands over is what it read; it hands nothing over if it read its own message, or nothing with an id. -/
theorem handed_iff (p : Packet) (t : Tx) (ts : List Tx) :
    handed n p = t :: ts ↔ n.decode p.msg.data = .ok t ∧ p.msg.sender ≠ p.dest ∧ t.id ≠ none ∧ ts = [] := by
  unfold handed applyTransaction
  cases hd : n.decode p.msg.data with
  | error x => simp [hd]
  | ok t' =>
    simp only [hd]
    by_cases hs : p.msg.sender = p.dest
    · simp [hs]
    · cases hi : t'.id with
      | none =>
        simp only [hs, if_false]
        constructor
        · intro h; cases h
        · rintro ⟨h1, _, h3, _⟩
          cases h1
          exact absurd hi h3
      | some i =>
        simp only [hs, if_false]
        constructor
        · intro h
          cases h
          exact ⟨rfl, hs, by rw [hi]; simp, rfl⟩
        · rintro ⟨h1, _, _, rfl⟩
          cases h1; rfl

/-- If the applicator's answer is nil, a transaction that can be read, with an id, is accepted. -/
theorem judge_accept (p : Packet) (t : Tx) (hdec : n.decode p.msg.data = .ok t) (hi : t.id ≠ none) :
    (validateTransaction { me := p.dest, decode := n.decode, lib := 0, apply := fun _ => none, author := id } p.msg).accept = true := by
  obtain ⟨i, hi⟩ := Option.ne_none_iff_exists'.1 hi
  by_cases hs : p.msg.sender = p.dest
  · simp [validateTransaction, applyTransaction, hdec, hs]
  · simp [validateTransaction, applyTransaction, hdec, hs, hi]

/-- If the validator accepts, it read its own message, or a transaction with an id to which the applicator's answer was nil. -/
theorem accept_cases (p : Packet) (e : Option Err)
    (h : (validateTransaction { me := p.dest, decode := n.decode, lib := 0, apply := fun _ => e, author := id } p.msg).accept = true) :
    ∃ t, n.decode p.msg.data = .ok t ∧ (p.msg.sender = p.dest ∨ (p.msg.sender ≠ p.dest ∧ t.id ≠ none ∧ e = none)) := by
  unfold validateTransaction applyTransaction at h
  cases hd : n.decode p.msg.data with
  | error x => simp [hd] at h
  | ok t =>
    refine ⟨t, rfl, ?_⟩
    by_cases hs : p.msg.sender = p.dest
    · exact Or.inl hs
    · right
      cases hi : t.id with
      | none => simp [hd, hs, hi] at h
      | some i =>
        cases e with
        | none => exact ⟨hs, by simp, rfl⟩
        | some x =>
          simp only [hd, hs, hi, if_false] at h
          split at h <;> rename_i heq
          · split at heq <;> cases heq
          · cases h

theorem callOf_mem {s : State} {p : Packet} {c : Call} (h : callOf s p = some c) : c ∈ s.calls ∧ c.node = p.dest ∧ c.data = p.msg.data := by
  unfold callOf at h
  have := List.find?_some h
  simp only [decide_eq_true_eq] at this
  exact ⟨List.mem_of_find?_eq_some h, this⟩

theorem callOf_none {s : State} {p : Packet} (h : callOf s p = none) : ∀ c ∈ s.calls, c.node = p.dest → c.data ≠ p.msg.data := by
  unfold callOf at h
  rw [List.find?_eq_none] at h
  intro c hc h1 h2
  have := h c hc
  simp only [decide_eq_true_eq] at this
  exact this ⟨h1, h2⟩

theorem result_mem {log : List TxA.Obs} {r : Nat} {e : Option Err} (h : resultOf log r = some e) : TxA.Obs.returned r e ∈ log := by
  unfold resultOf at h
  obtain ⟨o, ho, h2⟩ := List.exists_of_findSome?_eq_some h
  cases o with
  | returned r' e' =>
    dsimp only at h2
    split at h2
    · rename_i hr; cases h2; subst hr; exact ho
    · cases h2
  | _ => cases h2

theorem result_some {log : List TxA.Obs} {r : Nat} {e : Option Err} (h : TxA.Obs.returned r e ∈ log) : (resultOf log r).isSome = true := by
  unfold resultOf
  rw [List.findSome?_isSome_iff]
  exact ⟨_, h, by simp⟩

/-! ## Invariants -/

/-- What packets, validations and calls are. -/
structure Sound (n : Net) (s : State) : Prop where
  dest : ∀ p ∈ s.judging, n.honest p.dest = true
  own : ∀ p ∈ s.judging, p.msg.sender ≠ p.dest
  calls : ∀ c ∈ s.calls, n.honest c.node = true ∧ ∃ t, n.decode c.data = .ok t ∧ t.id ≠ none ∧ TxA.Obs.call c.number t ∈ (s.node c.node).log
  /-- a message in the name of a node was published by it -/
  signed : ∀ p, p ∈ s.flight ∨ p ∈ s.judging → n.honest p.msg.sender = true →
    ∃ t, Obs.published p.msg.sender t ∈ s.log ∧ n.encode t = p.msg.data

theorem sound_init (clock : Bytes → Int) : Sound n (init dur clock) :=
  ⟨fun _ h => (by cases h), fun _ h => (by cases h), fun _ h => (by cases h), fun _ h => (by rcases h with h | h <;> cases h)⟩

theorem sound_judge (s : State) (i : Nat) (p : Packet) (e : Option Err) (h : Sound n s) (hi : s.judging[i]? = some p) :
    Sound n (judge n s i p e) := by
  have hl : ∀ o ∈ s.log, o ∈ (judge n s i p e).log := fun o ho => List.mem_append_right _ (List.mem_cons_of_mem _ ho)
  refine ⟨fun q hq => h.dest q (List.mem_of_mem_eraseIdx hq), fun q hq => h.own q (List.mem_of_mem_eraseIdx hq), h.calls, fun q hq hs => ?_⟩
  rcases hq with hq | hq
  · rcases List.mem_append.1 hq with hq | hq
    · obtain ⟨t, h1, h2⟩ := h.signed q (Or.inl hq) hs; exact ⟨t, hl _ h1, h2⟩
    · obtain ⟨_, _, h2, h3, _⟩ := mem_pass hq
      rw [h3] at hs
      obtain ⟨t, g1, g2⟩ := h.signed p (Or.inr (List.mem_of_getElem? hi)) hs
      rw [h2, h3]
      exact ⟨t, hl _ g1, g2⟩
  · obtain ⟨t, h1, h2⟩ := h.signed q (Or.inr (List.mem_of_mem_eraseIdx hq)) hs; exact ⟨t, hl _ h1, h2⟩

theorem node_mono {s s' : State} {l : Label} (h : Tr n s l s') (v : Bytes) :
    (∀ o ∈ (s.node v).log, o ∈ (s'.node v).log) ∧ ∀ p ∈ (s.node v).passes, p ∈ (s'.node v).passes :=
  txa_mono (here_step h v)

theorem sound_step (s s' : State) (l : Label) (h : Sound n s) (hst : Tr n s l s') : Sound n s' := by
  have hm := fun v => (node_mono hst v).1
  cases hst with
  | again v t hv hs =>
    exact ⟨h.dest, h.own, h.calls, fun q hq hs => (by obtain ⟨t, h1, h2⟩ := h.signed q hq hs; exact ⟨t, List.mem_cons_of_mem _ h1, h2⟩)⟩
  | publish v t m hm' hv hs =>
    refine ⟨h.dest, h.own, h.calls, fun q hq hs => ?_⟩
    have old : q ∈ s.flight ∨ q ∈ s.judging → ∃ t', Obs.published q.msg.sender t' ∈
        (n.adj v).map (Obs.sent v · (n.encode t)) ++ .published v t :: s.log ∧ n.encode t' = q.msg.data := fun hq => by
      obtain ⟨t, h1, h2⟩ := h.signed q hq hs; exact ⟨t, List.mem_append_right _ (List.mem_cons_of_mem _ h1), h2⟩
    rcases hq with hq | hq
    · rcases List.mem_append.1 hq with hq | hq
      · exact old (Or.inl hq)
      · obtain ⟨_, _, h2, h3, _⟩ := mem_pass hq
        rw [h2, h3, hm']
        exact ⟨t, List.mem_append_right _ (List.mem_cons_self ..), rfl⟩
    · exact old (Or.inr hq)
  | lost i p hi _ => exact ⟨h.dest, h.own, h.calls, fun q hq hs => h.signed q (hq.imp_left List.mem_of_mem_eraseIdx) hs⟩
  | full i p hi => exact ⟨h.dest, h.own, h.calls, fun q hq hs => h.signed q (hq.imp_left List.mem_of_mem_eraseIdx) hs⟩
  | arrive i p hi hd ho hs =>
    refine ⟨fun q hq => ?_, fun q hq => ?_, h.calls, fun q hq hs => h.signed q ?_ hs⟩
    · rcases List.mem_append.1 hq with hq | hq
      · exact h.dest q hq
      · simp only [List.mem_singleton] at hq; subst hq; exact hd
    · rcases List.mem_append.1 hq with hq | hq
      · exact h.own q hq
      · simp only [List.mem_singleton] at hq; subst hq; exact ho
    · rcases hq with hq | hq
      · exact Or.inl (List.mem_of_mem_eraseIdx hq)
      · rcases List.mem_append.1 hq with hq | hq
        · exact Or.inr hq
        · simp only [List.mem_singleton] at hq; subst hq; exact Or.inl (List.mem_of_getElem? hi)
  | forget v id => exact ⟨h.dest, h.own, fun c hc => h.calls c (List.mem_of_mem_filter hc), h.signed⟩
  | inject p h1 h3 h2 =>
    refine ⟨h.dest, h.own, h.calls, fun q hq hs => ?_⟩
    have old : q ∈ s.flight ∨ q ∈ s.judging → ∃ t', Obs.published q.msg.sender t' ∈ Obs.sent p.source p.dest p.msg.data :: s.log ∧
        n.encode t' = q.msg.data := fun hq => by
      obtain ⟨t, h1, h2⟩ := h.signed q hq hs; exact ⟨t, List.mem_cons_of_mem _ h1, h2⟩
    rcases hq with hq | hq
    · rcases List.mem_append.1 hq with hq | hq
      · exact old (Or.inl hq)
      · simp only [List.mem_singleton] at hq
        subst hq
        rcases h2 with h2 | ⟨t, h2, h4⟩
        · rw [h2] at hs; cases hs
        · exact ⟨t, List.mem_cons_of_mem _ h2, h4⟩
    · exact old (Or.inr hq)
  | submit i p t ts x hi hc ht hx =>
    refine ⟨h.dest, h.own, fun c hcc => ?_, h.signed⟩
    rcases List.mem_append.1 hcc with hcc | hcc
    · obtain ⟨h1, t', h2, h3, h4⟩ := h.calls c hcc
      exact ⟨h1, t', h2, h3, hm _ _ h4⟩
    · simp only [List.mem_singleton] at hcc
      subst hcc
      obtain ⟨g1, g2, g3, _⟩ := (handed_iff p t ts).1 ht
      refine ⟨h.dest p (List.mem_of_getElem? hi), t, g1, g3, ?_⟩
      simp only [TxA.step, Option.some.injEq] at hx
      simp only [Function.update_self]
      rw [← hx]
      exact List.mem_cons_self ..
  | finish i p c e hi hc he => exact sound_judge s i p e h hi
  | skip i p hi hc ht => exact sound_judge s i p none h hi
  | node v l x hv hl hx =>
    refine ⟨h.dest, h.own, fun c hcc => ?_, h.signed⟩
    obtain ⟨h1, t', h2, h3, h4⟩ := h.calls c hcc
    exact ⟨h1, t', h2, h3, hm _ _ h4⟩

/-- `x` published the transaction, or a call of its applicator for it has returned nil. -/
def Asked (n : Net) (t : Tx) (x : Bytes) (s : State) : Prop :=
  Obs.published x t ∈ s.log ∨ n.honest x = true ∧ ∃ r, TxA.Obs.call r t ∈ (s.node x).log ∧ TxA.Obs.returned r none ∈ (s.node x).log

/-- Calls for the transaction that have returned have returned nil. -/
theorem returned_nil {t : Tx} {s : State} (hr : ∀ v, TxA.Reachable dur (s.node v)) (hs : Sound n s) (hw : Welcome n t s)
    (hp : Patient n t s) (hdec : n.decode (n.encode t) = .ok t) {c : Call} (hc : c ∈ s.calls) (hd : c.data = n.encode t) {e : Option Err}
    (he : TxA.Obs.returned c.number e ∈ (s.node c.node).log) : e = none := by
  obtain ⟨h1, t', h2, h3, h4⟩ := hs.calls c hc
  rw [hd, hdec] at h2
  cases h2
  have ha := hp _ h1 _ _ h4 he
  obtain ⟨now, ls, hrun⟩ := hr c.node
  have hi := TxA.reqInv_run hrun
  obtain ⟨tx, g1, g2⟩ := hi.ans _ _ ha
  cases hi.calls1 _ _ _ h4 g1
  rcases g2 with g2 | g2
  · cases e with
    | none => rfl
    | some x => exact absurd g2 (hw _ h1 _ _)
  · exact g2.1

theorem log_step (s s' : State) (l : Label) (h : Tr n s l s') (x : Obs) (hx : x ∈ s.log) : x ∈ s'.log := by
  cases h with
  | again => exact List.mem_cons_of_mem _ hx
  | publish => exact List.mem_append_right _ (List.mem_cons_of_mem _ hx)
  | inject => exact List.mem_cons_of_mem _ hx
  | finish => exact List.mem_append_right _ (List.mem_cons_of_mem _ hx)
  | skip => exact List.mem_append_right _ (List.mem_cons_of_mem _ hx)
  | _ => exact hx

theorem find_append {α : Type} (l m : List α) (f : α → Bool) (x : α) (h : l.find? f = some x) : (l ++ m).find? f = some x := by
  rw [List.find?_append, h]; rfl

/-- While a message is being validated, the call made for it stays. -/
theorem callOf_step {s s' : State} {l : Label} (h : Tr n s l s') (p : Packet) (c : Call) (hp : p ∈ s.judging) (hc : callOf s p = some c) :
    callOf s' p = some c := by
  cases h with
  | submit => exact find_append _ _ _ _ hc
  | forget v id hj =>
    rw [callOf, List.find?_filter, ← hc, callOf]
    congr 1
    funext a
    by_cases h : a.node = p.dest ∧ a.data = p.msg.data
    · have := hj p hp
      rw [h.1, h.2]
      simp [this]
    · simp [h]
  | _ => exact hc

theorem asked_step {t : Tx} {x : Bytes} {s s' : State} {l : Label} (h : Asked n t x s) (hst : Tr n s l s') : Asked n t x s' := by
  rcases h with h | ⟨h1, r, h2, h3⟩
  · exact Or.inl (log_step _ _ _ hst _ h)
  · exact Or.inr ⟨h1, r, (node_mono hst x).1 _ h2, (node_mono hst x).1 _ h3⟩

/-- `x` has published the transaction, or accepted a message with its contents. -/
def Took (n : Net) (t : Tx) (x : Bytes) (s : State) : Prop :=
  Obs.published x t ∈ s.log ∨ Obs.judged x (n.encode t) true ∈ s.log

/-- `x` is validating a message with the contents of the transaction. -/
def Busy (n : Net) (t : Tx) (x : Bytes) (s : State) : Prop := ∃ p ∈ s.judging, p.dest = x ∧ p.msg.data = n.encode t

/-- The transaction has got to `y`, or is on the way to it. -/
def Coming (n : Net) (t : Tx) (y : Bytes) (s : State) : Prop :=
  (Took n t y s ∨ Busy n t y s) ∨ ∃ p ∈ s.flight, p.dest = y ∧ p.msg.data = n.encode t

/-- It has got to all neighbours of `x`, or is on the way. -/
def Around (n : Net) (t : Tx) (x : Bytes) (s : State) : Prop := ∀ y ∈ n.adj x, n.honest y = true → Coming n t y s

/-- The validation of `p` ends. -/
def Ends (p : Packet) (s : State) : Label → Prop
  | .finish i => s.judging[i]? = some p
  | _ => False

/-- How far the transaction has got. -/
structure Spread (n : Net) (t : Tx) (s : State) : Prop where
  packets : ∀ p, p ∈ s.flight ∨ p ∈ s.judging → p.msg.data = n.encode t →
    (n.honest p.source = true → Took n t p.source s ∨ Busy n t p.source s) ∧ (n.honest p.msg.sender = true → Took n t p.msg.sender s)
  seen : ∀ x, (x, msgID n (n.encode t)) ∈ s.seen → Took n t x s ∨ Busy n t x s
  spread : ∀ x, Took n t x s → Busy n t x s ∨ Around n t x s
  done : ∀ x, Took n t x s → Asked n t x s

theorem took_step {t : Tx} {x : Bytes} {s s' : State} {l : Label} (h : Tr n s l s') (hx : Took n t x s) : Took n t x s' :=
  hx.imp (log_step s s' l h _) (log_step s s' l h _)

/-- Any state of an execution in which no chain refuses the transaction and no validation of it gives up. -/
structure Good (n : Net) (dur : Int) (t : Tx) (s : State) : Prop where
  reach : ∀ v, TxA.Reachable dur (s.node v)
  sound : Sound n s
  welcome : Welcome n t s
  patient : Patient n t s

section
variable {t : Tx} (hid : t.id ≠ none) (hdec : n.decode (n.encode t) = .ok t)

include hid hdec

/-- A validation of the transaction ends well. -/
theorem ends_well {s s' : State} {l : Label} (hg : Good n dur t s) (hst : Tr n s l s') (p : Packet) (he : Ends p s l)
    (hpd : p.msg.data = n.encode t) : ∃ i, s.judging[i]? = some p ∧ s' = judge n s i p none ∧
      (GossipValidate.validateTransaction
        { me := p.dest, decode := n.decode, lib := 0, apply := fun _ => none, author := id } p.msg).accept = true ∧
      ∃ r, TxA.Obs.call r t ∈ (s.node p.dest).log ∧ TxA.Obs.returned r none ∈ (s.node p.dest).log := by
  have hacc := judge_accept (n := n) p t (by rw [hpd]; exact hdec) hid
  cases hst with
  | finish i q c e hi hc hres =>
    simp only [Ends] at he
    rw [hi] at he; cases he
    obtain ⟨h1, h2, h3⟩ := callOf_mem hc
    have hres := result_mem hres
    rw [hpd] at h3
    rw [← h2] at hres
    have := returned_nil hg.reach hg.sound hg.welcome hg.patient hdec h1 h3 hres
    subst this
    obtain ⟨_, t', g1, _, g3⟩ := hg.sound.calls c h1
    rw [h3, hdec] at g1
    cases g1
    rw [h2] at g3 hres
    exact ⟨i, hi, rfl, hacc, _, g3, hres⟩
  | skip i q hi hc ht =>
    simp only [Ends] at he
    rw [hi] at he; cases he
    have := (handed_iff (n := n) p t []).2 ⟨by rw [hpd]; exact hdec, hg.sound.own p (List.mem_of_getElem? hi), hid, rfl⟩
    rw [ht] at this; cases this
  | _ => exact he.elim

omit hid hdec in
theorem busy_step {s s' : State} {l : Label} (hst : Tr n s l s') (x : Bytes) (hx : Busy n t x s) :
    Busy n t x s' ∨ ∃ p, Ends p s l ∧ p.dest = x ∧ p.msg.data = n.encode t := by
  obtain ⟨p, hp, h1, h2⟩ := hx
  cases hst with
  | arrive => exact Or.inl ⟨p, List.mem_append_left _ hp, h1, h2⟩
  | finish i q c e hi =>
    rcases erase_or hp hi with hp | rfl
    · exact Or.inl ⟨p, hp, h1, h2⟩
    · exact Or.inr ⟨p, hi, h1, h2⟩
  | skip i q hi =>
    rcases erase_or hp hi with hp | rfl
    · exact Or.inl ⟨p, hp, h1, h2⟩
    · exact Or.inr ⟨p, hi, h1, h2⟩
  | _ => exact Or.inl ⟨p, hp, h1, h2⟩

/-- Whoever ends a validation of the transaction has taken it. -/
theorem ended_took {s s' : State} {l : Label} (hg : Good n dur t s) (hst : Tr n s l s') (p : Packet) (he : Ends p s l)
    (hpd : p.msg.data = n.encode t) : Took n t p.dest s' := by
  obtain ⟨i, _, rfl, ha, _⟩ := ends_well hid hdec hg hst p he hpd
  right
  rw [← hpd]
  exact List.mem_append_right _ (by rw [ha]; exact List.mem_cons_self ..)

theorem either_step {s s' : State} {l : Label} (hg : Good n dur t s) (hst : Tr n s l s') (x : Bytes)
    (hx : Took n t x s ∨ Busy n t x s) : Took n t x s' ∨ Busy n t x s' := by
  rcases hx with hx | hx
  · exact Or.inl (took_step hst hx)
  · rcases busy_step hst x hx with hx | ⟨p, hj, rfl, h2⟩
    · exact Or.inr hx
    · exact Or.inl (ended_took hid hdec hg hst p hj h2)

theorem coming_step {s s' : State} {l : Label} (hs : Spread n t s) (hg : Good n dur t s) (hr : Room n t s l) (hst : Tr n s l s') (y : Bytes)
    (hyh : n.honest y = true) (hy : Coming n t y s) : Coming n t y s' := by
  rcases hy with hy | ⟨p, hpf, h1, h2⟩
  · exact Or.inl (either_step hid hdec hg hst y hy)
  cases hst with
  | publish => exact Or.inr ⟨p, List.mem_append_left _ hpf, h1, h2⟩
  | lost i q hi hc =>
    rcases erase_or hpf hi with hpf | rfl
    · exact Or.inr ⟨p, hpf, h1, h2⟩
    · rcases hc with hc | hc | hc
      · rw [h1, hyh] at hc; cases hc
      · left; left
        have := (hs.packets p (Or.inl hpf) h2).2 (by rw [hc, h1]; exact hyh)
        rw [hc, h1] at this
        exact this
      · rw [h1, h2] at hc; exact Or.inl (hs.seen y hc)
  | full i q hi hd ho hm hf =>
    rcases erase_or hpf hi with hpf | rfl
    · exact Or.inr ⟨p, hpf, h1, h2⟩
    · exact absurd (hr i p rfl hi h2 hd) hf
  | arrive i q hi hd ho hm =>
    rcases erase_or hpf hi with hpf | rfl
    · exact Or.inr ⟨p, hpf, h1, h2⟩
    · exact Or.inl (Or.inr ⟨p, List.mem_append_right _ (List.mem_singleton_self _), h1, h2⟩)
  | finish => exact Or.inr ⟨p, List.mem_append_left _ hpf, h1, h2⟩
  | skip => exact Or.inr ⟨p, List.mem_append_left _ hpf, h1, h2⟩
  | inject => exact Or.inr ⟨p, List.mem_append_left _ hpf, h1, h2⟩
  | _ => exact Or.inr ⟨p, hpf, h1, h2⟩

/-- Whoever ends a validation of the transaction has sent it to all neighbours. -/
theorem ended_around {s s' : State} {l : Label} (hs : Spread n t s) (hg : Good n dur t s) (hst : Tr n s l s') (p : Packet)
    (he : Ends p s l) (hpd : p.msg.data = n.encode t) : Around n t p.dest s' := by
  intro y hy hyh
  have hst' := hst
  obtain ⟨i, hi, rfl, ha, _⟩ := ends_well hid hdec hg hst p he hpd
  have hps := hs.packets p (Or.inr (List.mem_of_getElem? hi)) hpd
  by_cases h1 : y = p.source
  · exact Or.inl (either_step hid hdec hg hst' y (by rw [h1]; exact hps.1 (by rw [← h1]; exact hyh)))
  by_cases h2 : y = p.msg.sender
  · exact Or.inl (Or.inl (took_step hst' (by rw [h2]; exact hps.2 (by rw [← h2]; exact hyh))))
  refine Or.inr ⟨⟨p.dest, y, { p.msg with receivedFrom := p.dest }⟩, List.mem_append_right _ ?_, rfl, hpd⟩
  simp only [ha, if_true]
  exact List.mem_map.2 ⟨y, List.mem_filter.2 ⟨hy, by simp [h1, h2]⟩, rfl⟩

theorem spread_step (hinj : ∀ c, n.encode c = n.encode t → c = t)
    (hcol : ∀ x, n.sha x = n.sha (n.encode t) → x = n.encode t) (s s' : State) (l : Label)
    (hs : Spread n t s) (hg : Good n dur t s) (hr : Room n t s l) (hst : Tr n s l s') : Spread n t s' := by
  have hmid : ∀ x, msgID n x = msgID n (n.encode t) → x = n.encode t := fun x hx => hcol x ((id_iff n _ _).1 hx)
  have either := either_step hid hdec hg hst
  -- the old packets, and those who have taken the transaction before
  have oldp : ∀ p, p ∈ s.flight ∨ p ∈ s.judging → p.msg.data = n.encode t →
      (n.honest p.source = true → Took n t p.source s' ∨ Busy n t p.source s') ∧ (n.honest p.msg.sender = true → Took n t p.msg.sender s') :=
    fun p hp hpd => ⟨fun hx => either _ ((hs.packets p hp hpd).1 hx), fun hx => took_step hst ((hs.packets p hp hpd).2 hx)⟩
  have oldb : ∀ x, Busy n t x s ∨ Around n t x s → Busy n t x s' ∨ Around n t x s' := by
    intro x hx
    rcases hx with hx | hx
    · rcases busy_step hst x hx with hx | ⟨p, hj, rfl, h2⟩
      · exact Or.inl hx
      · exact Or.inr (ended_around hid hdec hs hg hst p hj h2)
    · exact Or.inr fun y hy hyh => coming_step hid hdec hs hg hr hst y hyh (hx y hy hyh)
  have olds : ∀ x, Took n t x s → Busy n t x s' ∨ Around n t x s' := fun x hx => oldb x (hs.spread x hx)
  have oldd : ∀ x, Took n t x s → Asked n t x s' := fun x hx => asked_step (hs.done x hx) hst
  have olde : ∀ x, (x, msgID n (n.encode t)) ∈ s.seen → Took n t x s' ∨ Busy n t x s' := fun x hx => either x (hs.seen x hx)
  -- the end of a validation
  have ends : ∀ p i e, s.judging[i]? = some p → Ends p s l → s' = judge n s i p e → Spread n t s' := by
    intro p i e hi he hs'
    have hin := List.mem_of_getElem? hi
    have back : ∀ x, Took n t x s' → Took n t x s ∨ (x = p.dest ∧ p.msg.data = n.encode t) := by
      rw [hs']
      rintro x (hx | hx)
      · exact Or.inl (Or.inl (by simpa [judge] using hx))
      · simp only [judge, List.mem_append, List.mem_map, List.mem_cons] at hx
        rcases hx with (⟨_, _, hx⟩ | ⟨_, _, hx⟩) | hx | hx
        · cases hx
        · cases hx
        · simp only [Obs.judged.injEq] at hx
          exact Or.inr ⟨hx.1, hx.2.1.symm⟩
        · exact Or.inl (Or.inr hx)
    refine ⟨?_, ?_, ?_, ?_⟩
    · intro q hq hqd
      have hq : q ∈ s.flight ∨ q ∈ s.judging ∨ (q.source = p.dest ∧ q.msg.data = p.msg.data ∧ q.msg.sender = p.msg.sender) := by
        rw [hs'] at hq
        rcases hq with hq | hq
        · rcases List.mem_append.1 hq with hq | hq
          · exact Or.inl hq
          · obtain ⟨h1, _, h2, h3, _⟩ := mem_pass hq
            exact Or.inr (Or.inr ⟨h1, h2, h3⟩)
        · exact Or.inr (Or.inl (List.mem_of_mem_eraseIdx hq))
      rcases hq with hq | hq | ⟨h1, h2, h3⟩
      · exact oldp q (Or.inl hq) hqd
      · exact oldp q (Or.inr hq) hqd
      · rw [hqd] at h2
        rw [h1, h3]
        exact ⟨fun _ => Or.inl (ended_took hid hdec hg hst p he h2.symm), (oldp p (Or.inr hin) h2.symm).2⟩
    · intro x hx
      exact olde x (by rw [hs'] at hx; exact hx)
    · intro x hx
      rcases back x hx with hx | ⟨rfl, hpd⟩
      · exact olds x hx
      · exact Or.inr (ended_around hid hdec hs hg hst p he hpd)
    · intro x hx
      rcases back x hx with hx | ⟨rfl, hpd⟩
      · exact oldd x hx
      · obtain ⟨_, _, _, _, r, g1, g2⟩ := ends_well hid hdec hg hst p he hpd
        exact asked_step (Or.inr ⟨hg.sound.dest p hin, r, g1, g2⟩) hst
  have hst' := hst
  cases hst with
  | again v b' hv hm =>
    have back : ∀ x, Took n t x { s with log := .published v b' :: s.log } → Took n t x s ∨ (x = v ∧ b' = t) := by
      rintro x (hx | hx)
      · rcases List.mem_cons.1 hx with hx | hx
        · cases hx; exact Or.inr ⟨rfl, rfl⟩
        · exact Or.inl (Or.inl hx)
      · exact Or.inl (Or.inr (by simpa using hx))
    refine ⟨oldp, olde, ?_, ?_⟩
    · intro x hx
      rcases back x hx with hx | ⟨rfl, rfl⟩
      · exact olds x hx
      · exact oldb x ((hs.seen x hm).elim (hs.spread x) Or.inl)
    · intro x hx
      rcases back x hx with hx | ⟨rfl, rfl⟩
      · exact oldd x hx
      · exact Or.inl (List.mem_cons_self ..)
  | publish v b' m hm hv hm' =>
    subst hm
    have back : ∀ x, Took n t x { s with
        seen := (v, msgID n (n.encode b')) :: s.seen
        flight := s.flight ++ pass v { data := n.encode b', sender := v, receivedFrom := v, key := v } (n.adj v)
        log := (n.adj v).map (.sent v · (n.encode b')) ++ .published v b' :: s.log } → Took n t x s ∨ (x = v ∧ b' = t) := by
      rintro x (hx | hx)
      · rcases List.mem_append.1 hx with hx | hx
        · simp at hx
        · rcases List.mem_cons.1 hx with hx | hx
          · cases hx; exact Or.inr ⟨rfl, rfl⟩
          · exact Or.inl (Or.inl hx)
      · exact Or.inl (Or.inr (by simpa using hx))
    have pub : b' = t → Took n t v { s with
        seen := (v, msgID n (n.encode b')) :: s.seen
        flight := s.flight ++ pass v { data := n.encode b', sender := v, receivedFrom := v, key := v } (n.adj v)
        log := (n.adj v).map (.sent v · (n.encode b')) ++ .published v b' :: s.log } :=
      fun e => Or.inl (List.mem_append_right _ (by rw [e]; exact List.mem_cons_self ..))
    refine ⟨?_, ?_, ?_, ?_⟩
    · intro p hp hpd
      rcases hp with hp | hp
      · rcases List.mem_append.1 hp with hp | hp
        · exact oldp p (Or.inl hp) hpd
        · obtain ⟨h1, _, h2, h3, _⟩ := mem_pass hp
          rw [hpd] at h2
          simp only at h2 h3
          have := pub (hinj b' h2.symm)
          rw [h1, h3]
          exact ⟨fun _ => Or.inl this, fun _ => this⟩
      · exact oldp p (Or.inr hp) hpd
    · intro x hx
      rcases List.mem_cons.1 hx with hx | hx
      · rw [(Prod.mk.inj hx).1]
        exact Or.inl (pub (hinj b' (hmid _ (Prod.mk.inj hx).2.symm)))
      · exact olde x hx
    · intro x hx
      rcases back x hx with hx | ⟨rfl, rfl⟩
      · exact olds x hx
      · exact Or.inr fun y hy hyh => Or.inr ⟨⟨x, y, _⟩, List.mem_append_right _ (List.mem_map.2 ⟨y, hy, rfl⟩), rfl, rfl⟩
    · intro x hx
      rcases back x hx with hx | ⟨rfl, rfl⟩
      · exact oldd x hx
      · exact Or.inl (List.mem_append_right _ (List.mem_cons_self ..))
  | lost i p hi hc =>
    exact ⟨fun q hq => oldp q (hq.imp_left List.mem_of_mem_eraseIdx), olde, olds, oldd⟩
  | full j p hj hd ho hm hf =>
    refine ⟨fun q hq => oldp q (hq.imp_left List.mem_of_mem_eraseIdx), fun x hx => ?_, olds, oldd⟩
    rcases List.mem_cons.1 hx with hx | hx
    · exact absurd (hr j p rfl hj (hmid _ (Prod.mk.inj hx).2.symm) hd) hf
    · exact olde x hx
  | arrive j p hj hd ho hm =>
    have hin := List.mem_of_getElem? hj
    refine ⟨?_, ?_, olds, oldd⟩
    · intro q hq hqd
      refine oldp q ?_ hqd
      rcases hq with hq | hq
      · exact Or.inl (List.mem_of_mem_eraseIdx hq)
      · rcases List.mem_append.1 hq with hq | hq
        · exact Or.inr hq
        · simp only [List.mem_singleton] at hq; subst hq; exact Or.inl hin
    · intro x hx
      rcases List.mem_cons.1 hx with hx | hx
      · obtain ⟨h1, h2⟩ := Prod.mk.inj hx
        exact Or.inr ⟨p, List.mem_append_right _ (List.mem_singleton_self _), h1.symm, hmid _ h2.symm⟩
      · exact olde x hx
  | finish i p c e hi hc he => exact ends p i e hi hi rfl
  | skip i p hi hc ht => exact ends p i none hi hi rfl
  | inject p h1 h3 h2 =>
    have back : ∀ x, Took n t x { s with flight := s.flight ++ [p], log := .sent p.source p.dest p.msg.data :: s.log } → Took n t x s :=
      fun x hx => hx.imp (by simp) (by simp)
    refine ⟨?_, olde, fun x hx => olds x (back x hx), fun x hx => oldd x (back x hx)⟩
    intro q hq hqd
    rcases hq with hq | hq
    · rcases List.mem_append.1 hq with hq | hq
      · exact oldp q (Or.inl hq) hqd
      · simp only [List.mem_singleton] at hq
        subst hq
        refine ⟨fun h => (by rw [h1] at h; cases h), fun h => ?_⟩
        rcases h2 with h2 | ⟨c, h2, h4⟩
        · rw [h2] at h; cases h
        · rw [hinj c (h4.trans hqd)] at h2
          exact Or.inl (List.mem_cons_of_mem _ h2)
    · exact oldp q (Or.inr hq) hqd
  | forget v id =>
    exact ⟨oldp, fun x hx => olde x (List.mem_of_mem_filter hx), olds, oldd⟩
  | submit => exact ⟨oldp, olde, olds, oldd⟩
  | node => exact ⟨oldp, olde, olds, oldd⟩

end

end TxFlood
end KP2P

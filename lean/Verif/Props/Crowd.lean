import Verif.Proof.TxFlood
/-!
# C151: messages that arrive while many others are being validated
-/

namespace KP2P

namespace Flood
open KP2P.Spec.Flood
open KP2P.GossipValidate (Msg validateBlock)

variable {n : Net}

private theorem crowd_append (s : State) (ls ms : List Label) : run n s (ls ++ ms) = (run n s ls).bind fun s' => run n s' ms := by
  induction ls generalizing s with
  | nil => rfl
  | cons l ls ih =>
    simp only [List.cons_append, run]
    cases step n s l with
    | none => rfl
    | some s' => exact ih s'

/-- What holds at the beginning of a run, and is kept by its steps, holds at its end. -/
theorem crowd_ind (P : State → Prop) (ls : List Label) (hstep : ∀ s s' l, l ∈ ls → P s → FTr n s l s' → P s') :
    ∀ s s', P s → run n s ls = some s' → P s' := by
  induction ls with
  | nil => intro s s' h hr; cases hr; exact h
  | cons l ls ih =>
    intro s s' h hr
    simp only [run] at hr
    split at hr
    · rename_i s1 h1
      exact ih (fun s s' l' hl => hstep s s' l' (List.mem_cons_of_mem _ hl)) s1 s' (hstep s s1 l (List.mem_cons_self ..) h (ftr_of_step _ _ _ h1)) hr
    · cases hr

/-- The message is being validated, or has been judged. -/
private def Under (p : Packet) (s : State) : Prop := p ∈ s.judging ∨ ∃ ok, Obs.judged p.dest p.msg.data ok ∈ s.log

private theorem under_step {p : Packet} {s s' : State} {l : Label} (h : FTr n s l s') (hu : Under p s) : Under p s' := by
  rcases hu with hu | ⟨ok, hu⟩
  swap
  · exact Or.inr ⟨ok, log_step s s' l h _ hu⟩
  cases h with
  | arrive => exact Or.inl (List.mem_append_left _ hu)
  | judge i lib answer q r ws hi hr hws =>
    rcases erase_or hu hi with hu | rfl
    · exact Or.inl hu
    · exact Or.inr ⟨r.accept, List.mem_append_right _ (List.mem_cons_self ..)⟩
  | _ => exact Or.inl hu

/-- `v` has thrown the message with this id away, and will not look at another copy. -/
private structure Shut (n : Net) (v id : Bytes) (s : State) : Prop where
  seen : (v, id) ∈ s.seen
  judging : ∀ p ∈ s.judging, p.dest = v → msgID n p.msg.data ≠ id
  judged : ∀ data ok, Obs.judged v data ok ∈ s.log → msgID n data ≠ id
  sent : ∀ w data, Obs.sent v w data ∈ s.log → msgID n data ≠ id

private theorem shut_step {v id : Bytes} (hv : n.honest v = true) {s s' : State} {l : Label} (hl : l ≠ .forget v id) (h : FTr n s l s')
    (hs : Shut n v id s) : Shut n v id s' := by
  cases h with
  | again w b hw hm =>
    exact ⟨hs.seen, hs.judging, fun d ok hm => hs.judged d ok (by simpa using hm), fun w d hm => hs.sent w d (by simpa using hm)⟩
  | publish w b m hm hw hs' =>
    refine ⟨List.mem_cons_of_mem _ hs.seen, hs.judging, fun d ok hm => hs.judged d ok (by simpa using hm), fun x d hm => ?_⟩
    rcases List.mem_append.1 hm with hm | hm
    · obtain ⟨y, _, hy⟩ := List.mem_map.1 hm
      cases hy
      intro e
      rw [e] at hs'
      exact hs' hs.seen
    · exact hs.sent x d (by simpa using hm)
  | lost => exact ⟨hs.seen, hs.judging, hs.judged, hs.sent⟩
  | full => exact ⟨List.mem_cons_of_mem _ hs.seen, hs.judging, hs.judged, hs.sent⟩
  | arrive i p hi hd ho hm hf =>
    refine ⟨List.mem_cons_of_mem _ hs.seen, fun q hq hqv => ?_, hs.judged, hs.sent⟩
    rcases List.mem_append.1 hq with hq | hq
    · exact hs.judging q hq hqv
    · rw [List.mem_singleton] at hq
      subst hq
      intro e
      rw [hqv, e] at hm
      exact hm hs.seen
  | judge i lib answer p r ws hi hr hws =>
    have hp := hs.judging p (List.mem_of_getElem? hi)
    refine ⟨hs.seen, fun q hq => hs.judging q (List.mem_of_mem_eraseIdx hq), fun d ok hm => ?_, fun x d hm => ?_⟩
    · simp only [List.mem_append, List.mem_map, List.mem_cons] at hm
      rcases hm with (⟨_, _, hm⟩ | ⟨_, _, hm⟩) | hm | ⟨_, _, hm⟩ | hm
      · cases hm
      · cases hm
      · simp only [Obs.judged.injEq] at hm
        rw [hm.2.1]; exact hp hm.1.symm
      · cases hm
      · exact hs.judged d ok hm
    · simp only [List.mem_append, List.mem_map, List.mem_cons] at hm
      rcases hm with (⟨_, _, hm⟩ | ⟨_, _, hm⟩) | hm | ⟨_, _, hm⟩ | hm
      · simp only [Obs.sent.injEq] at hm
        rw [← hm.2.2]; exact hp hm.1
      · cases hm
      · cases hm
      · cases hm
      · exact hs.sent x d hm
  | inject p h1 h3 h2 =>
    refine ⟨hs.seen, hs.judging, fun d ok hm => hs.judged d ok (by simpa using hm), fun x d hm => ?_⟩
    rcases List.mem_cons.1 hm with hm | hm
    · simp only [Obs.sent.injEq] at hm
      rw [← hm.1, hv] at h1; cases h1
    · exact hs.sent x d hm
  | forget w x =>
    refine ⟨List.mem_filter.2 ⟨hs.seen, ?_⟩, hs.judging, hs.judged, hs.sent⟩
    simp only [ne_eq, decide_eq_true_eq, Prod.mk.injEq, not_and]
    intro e1 e2
    exact hl (by rw [e1, e2])

end Flood

open KP2P.Flood KP2P.Spec.Flood in
/-- C151 (in part). A message that arrives at a node for the first time, while fewer validations go on there than may, is validated: whatever happens
afterwards, it is still being validated or has been judged. -/
theorem C151_taken_partial {n : Net} (s s' : Flood.State) (i : Nat) (p : Packet) (hp : s.flight[i]? = some p) (hd : n.honest p.dest = true)
    (ho : p.msg.sender ≠ p.dest) (hns : (p.dest, Flood.msgID n p.msg.data) ∉ s.seen) (hroom : Roomy n s p.dest) (ls : List Flood.Label)
    (hr : Flood.run n s (.arrive i :: ls) = some s') : p ∈ s'.judging ∨ ∃ ok, Flood.Obs.judged p.dest p.msg.data ok ∈ s'.log := by
  simp only [Flood.run] at hr
  split at hr
  · rename_i s1 h1
    refine Flood.crowd_ind (Flood.Under p) ls (fun s s' l _ hu hst => Flood.under_step hst hu) s1 s' ?_ hr
    cases ftr_of_step _ _ _ h1 with
    | lost _ q hq hc =>
      rw [hp] at hq; cases hq
      rcases hc with hc | hc | hc
      · rw [hd] at hc; cases hc
      · exact absurd hc ho
      · exact absurd hc hns
    | full _ q hq _ _ _ hf => rw [hp] at hq; cases hq; exact absurd hroom hf
    | arrive _ q hq => rw [hp] at hq; cases hq; exact Or.inl (List.mem_append_right _ (List.mem_singleton_self _))
  · cases hr

namespace Flood
open KP2P.Spec.Flood
open KP2P.GossipValidate (Msg)

variable {n : Net}

/-- What `e` sends to `v`. -/
def junkAt (e v : Bytes) (d : Bytes) : Packet := ⟨e, v, { data := d, sender := e, receivedFrom := e, key := e }⟩

private theorem crowd {v e : Bytes} (hv : n.honest v = true) (he : n.honest e = false) (junk : Nat → Bytes)
    (hj : ∀ i j, i < j → j < n.room → n.sha (junk i) ≠ n.sha (junk j)) (k : Nat) (hk : k ≤ n.room) :
    ∃ s, run n init ((List.range k).flatMap fun i => [.inject (junkAt e v (junk i)), .arrive 0]) = some s ∧ s.flight = [] ∧
      s.judging = (List.range k).map (fun i => junkAt e v (junk i)) ∧ (∀ x ∈ s.seen, ∃ i < k, x = (v, msgID n (junk i))) ∧
      ∀ o ∈ s.log, ∃ d, o = .sent e v d := by
  induction k with
  | zero => exact ⟨init, rfl, rfl, rfl, fun _ h => (by cases h), fun _ h => (by cases h)⟩
  | succ k ih =>
    obtain ⟨s, h1, h2, h3, h4, h5⟩ := ih (by omega)
    have hev : e ≠ v := fun h => by rw [h, hv] at he; cases he
    have hns : (v, msgID n (junk k)) ∉ s.seen := by
      intro hm
      obtain ⟨i, hi, h⟩ := h4 _ hm
      exact hj i k hi (by omega) ((id_iff n _ _).1 (Prod.mk.inj h).2.symm)
    have hc : s.judging.countP (fun q => q.dest = v) < n.room := by
      have := List.countP_le_length (p := fun q : Packet => decide (q.dest = v)) (l := s.judging)
      have h6 : s.judging.length = k := by rw [h3]; simp
      omega
    refine ⟨{ s with
      seen := (v, msgID n (junk k)) :: s.seen
      flight := []
      judging := s.judging ++ [junkAt e v (junk k)]
      log := .sent e v (junk k) :: s.log }, ?_, rfl, ?_, ?_, ?_⟩
    · rw [List.range_succ, List.flatMap_append, crowd_append, h1]
      simp [run, step, junkAt, he, hv, h2, hns, hev, Nat.not_le.2 hc]
    · rw [List.range_succ, List.map_append, ← h3]; rfl
    · intro x hx
      rcases List.mem_cons.1 hx with hx | hx
      · exact ⟨k, by omega, hx⟩
      · obtain ⟨i, hi, h⟩ := h4 x hx
        exact ⟨i, by omega, h⟩
    · intro o ho
      rcases List.mem_cons.1 ho with ho | ho
      · exact ⟨_, ho⟩
      · exact h5 o ho

end Flood

open KP2P.Flood KP2P.Spec.Flood in
/-- C151 (refuted in general). Somebody who sends a node as many messages as may be validated at a time, whatever is in them, makes it throw away a
block that one of its neighbours has published and sent to it meanwhile: whatever happens afterwards, and as long as the node does not forget the id of
the message, it neither judges the block nor sends it to anybody, not even when others send it again. -/
theorem C151_displaced_refuted {n : Net} (a v e : Bytes) (ha : n.honest a = true) (hv : n.honest v = true) (he : n.honest e = false)
    (hav : a ≠ v) (hadj : v ∈ n.adj a) (b : RawBlock) (junk : Nat → Bytes)
    (hj : ∀ i j, i < j → j < n.room → n.sha (junk i) ≠ n.sha (junk j)) (hb : ∀ i < n.room, n.sha (junk i) ≠ n.sha (n.encode b)) :
    ∃ ls s, Flood.run n Flood.init ls = some s ∧ (∀ w id, Flood.Label.forget w id ∉ ls) ∧
      ls.countP (fun | .inject _ => true | _ => false) = n.room ∧
      Flood.Obs.published a b ∈ s.log ∧ Flood.Obs.sent a v (n.encode b) ∈ s.log ∧
      ∀ ls' s', Flood.run n s ls' = some s' → Flood.Label.forget v (Flood.msgID n (n.encode b)) ∉ ls' →
        (∀ ok, Flood.Obs.judged v (n.encode b) ok ∉ s'.log) ∧ ∀ w, Flood.Obs.sent v w (n.encode b) ∉ s'.log := by
  obtain ⟨s, h1, h2, h3, h4, h5⟩ := Flood.crowd hv he junk hj n.room (Nat.le_refl _)
  let m : GossipValidate.Msg := { data := n.encode b, sender := a, receivedFrom := a, key := a }
  let s1 : Flood.State := { s with
    seen := (a, Flood.msgID n m.data) :: s.seen
    flight := s.flight ++ pass a m (n.adj a)
    log := (n.adj a).map (.sent a · m.data) ++ .published a b :: s.log }
  have hna : (a, Flood.msgID n (n.encode b)) ∉ s.seen := fun hm => by
    obtain ⟨i, hi, h⟩ := h4 _ hm
    exact hav (Prod.mk.inj h).1
  have hnv : (v, Flood.msgID n (n.encode b)) ∉ s1.seen := fun hm => by
    rcases List.mem_cons.1 hm with hm | hm
    · exact hav (Prod.mk.inj hm).1.symm
    · obtain ⟨i, hi, h⟩ := h4 _ hm
      exact hb i hi ((Flood.id_iff n _ _).1 (Prod.mk.inj h).2.symm)
  have hp1 : Flood.step n s (.publish a b) = some s1 := by simp [Flood.step, ha, hna, s1, m]
  obtain ⟨i, hi⟩ := List.getElem?_of_mem (show (⟨a, v, m⟩ : Packet) ∈ s1.flight from
    List.mem_append_right _ (List.mem_map.2 ⟨v, hadj, rfl⟩))
  have hfull : n.room ≤ s1.judging.countP (fun q => q.dest = v) := by
    show n.room ≤ s.judging.countP _
    rw [h3, List.countP_map, List.countP_eq_length.2 (fun x _ => by simp [Flood.junkAt])]
    simp
  let s2 : Flood.State := { s1 with seen := (v, Flood.msgID n m.data) :: s1.seen, flight := s1.flight.eraseIdx i }
  have hp2 : Flood.step n s1 (.arrive i) = some s2 := by
    simp only [Flood.step, hi]
    rw [if_neg (by simp [hv]), if_neg (by exact hav), if_neg (by exact hnv), if_pos (by exact hfull)]
  refine ⟨((List.range n.room).flatMap fun i => [.inject (Flood.junkAt e v (junk i)), .arrive 0]) ++ [.publish a b, .arrive i], s2,
    ?_, ?_, ?_, ?_, ?_, ?_⟩
  · rw [Flood.crowd_append, h1]
    simp [Flood.run, hp1, hp2]
  · intro w id hm
    simp at hm
  · rw [List.countP_append, List.countP_flatMap]
    simp [Function.comp_def]
  · exact List.mem_append_right _ (List.mem_cons_self ..)
  · exact List.mem_append_left _ (List.mem_map.2 ⟨v, hadj, rfl⟩)
  · intro ls' s' hr hf
    have := Flood.crowd_ind (Flood.Shut n v (Flood.msgID n (n.encode b))) ls'
      (fun s s' l hl hs hst => Flood.shut_step hv (fun e => hf (by rw [← e]; exact hl)) hst hs) s2 s' ?_ hr
    · exact ⟨fun ok hm => this.judged _ _ hm rfl, fun w hm => this.sent _ _ hm rfl⟩
    refine ⟨List.mem_cons_self .., fun p hp _ hid => ?_, fun d ok hm => ?_, fun w d hm => ?_⟩
    · have hp : p ∈ s.judging := hp
      rw [h3] at hp
      obtain ⟨j, hj', rfl⟩ := List.mem_map.1 hp
      exact hb j (List.mem_range.1 hj') ((Flood.id_iff n _ _).1 hid)
    · rcases List.mem_append.1 hm with hm | hm
      · simp at hm
      · obtain ⟨d, h⟩ := h5 _ ((List.mem_cons.1 hm).resolve_left (by simp))
        cases h
    · rcases List.mem_append.1 hm with hm | hm
      · obtain ⟨_, _, h⟩ := List.mem_map.1 hm
        cases h; exact absurd rfl hav
      · obtain ⟨d, h⟩ := h5 _ ((List.mem_cons.1 hm).resolve_left (by simp))
        cases h
        rw [hv] at he; cases he

/-- The hypotheses of C151 hold: a network with room for 1024 validations, and junk. -/
example : ∃ (n : Flood.Net) (a v e : Bytes) (b : RawBlock) (junk : Nat → Bytes), n.room = 1024 ∧ n.honest a = true ∧ n.honest v = true ∧
    n.honest e = false ∧ a ≠ v ∧ v ∈ n.adj a ∧ (∀ i j, i < j → j < n.room → n.sha (junk i) ≠ n.sha (junk j)) ∧
    ∀ i < n.room, n.sha (junk i) ≠ n.sha (n.encode b) := by
  refine ⟨⟨fun v => decide (v ≠ [9]), fun _ => [[2]], fun _ => [1], fun _ => .error (.other 0), id, 1024⟩, [1], [2], [9], ⟨none, none, [], []⟩,
    fun i => List.replicate (i + 2) 0, rfl, by decide, by decide, by decide, by decide, by decide, fun i j hij _ h => ?_, fun i _ h => ?_⟩
  · have := congrArg List.length h
    simp at this
    omega
  · have := congrArg List.length h
    simp at this

namespace TxFlood
open KP2P.Spec.TxFlood
open KP2P.Flood (Packet pass erase_or junkAt)

variable {n : Net}

private theorem crowd_append (s : State) (ls ms : List Label) : run n s (ls ++ ms) = (run n s ls).bind fun s' => run n s' ms := by
  induction ls generalizing s with
  | nil => rfl
  | cons l ls ih =>
    simp only [List.cons_append, run]
    cases step n s l with
    | none => rfl
    | some s' => exact ih s'

/-- What holds at the beginning of a run, and is kept by its steps, holds at its end. -/
theorem crowd_ind (P : State → Prop) (ls : List Label) (hstep : ∀ s s' l, l ∈ ls → P s → Tr n s l s' → P s') :
    ∀ s s', P s → run n s ls = some s' → P s' := by
  induction ls with
  | nil => intro s s' h hr; cases hr; exact h
  | cons l ls ih =>
    intro s s' h hr
    simp only [run] at hr
    split at hr
    · rename_i s1 h1
      exact ih (fun s s' l' hl => hstep s s' l' (List.mem_cons_of_mem _ hl)) s1 s' (hstep s s1 l (List.mem_cons_self ..) h (tr_of_step _ _ _ h1)) hr
    · cases hr

/-- `v` has thrown the message with this id away, and will not look at another copy. -/
private structure Shut (n : Net) (v id : Bytes) (s : State) : Prop where
  seen : (v, id) ∈ s.seen
  judging : ∀ p ∈ s.judging, p.dest = v → msgID n p.msg.data ≠ id
  judged : ∀ data ok, Obs.judged v data ok ∈ s.log → msgID n data ≠ id
  sent : ∀ w data, Obs.sent v w data ∈ s.log → msgID n data ≠ id

private theorem shut_judge {v id : Bytes} {s : State} (hs : Shut n v id s) (i : Nat) (p : Packet) (e : Option Err) (hi : s.judging[i]? = some p) :
    Shut n v id (judge n s i p e) := by
  have hp := hs.judging p (List.mem_of_getElem? hi)
  refine ⟨hs.seen, fun q hq => hs.judging q (List.mem_of_mem_eraseIdx hq), fun d ok hm => ?_, fun x d hm => ?_⟩
  · simp only [judge, List.mem_append, List.mem_map, List.mem_cons] at hm
    rcases hm with (⟨_, _, hm⟩ | ⟨_, _, hm⟩) | hm | hm
    · cases hm
    · cases hm
    · simp only [Obs.judged.injEq] at hm
      rw [hm.2.1]; exact hp hm.1.symm
    · exact hs.judged d ok hm
  · simp only [judge, List.mem_append, List.mem_map, List.mem_cons] at hm
    rcases hm with (⟨_, _, hm⟩ | ⟨_, _, hm⟩) | hm | hm
    · simp only [Obs.sent.injEq] at hm
      rw [← hm.2.2]; exact hp hm.1
    · cases hm
    · cases hm
    · exact hs.sent x d hm

private theorem shut_step {v id : Bytes} (hv : n.honest v = true) {s s' : State} {l : Label} (hl : l ≠ .forget v id) (h : Tr n s l s')
    (hs : Shut n v id s) : Shut n v id s' := by
  cases h with
  | again w b hw hm =>
    exact ⟨hs.seen, hs.judging, fun d ok hm => hs.judged d ok (by simpa using hm), fun w d hm => hs.sent w d (by simpa using hm)⟩
  | publish w b m hm hw hs' =>
    refine ⟨List.mem_cons_of_mem _ hs.seen, hs.judging, fun d ok hm => hs.judged d ok (by simpa using hm), fun x d hm => ?_⟩
    rcases List.mem_append.1 hm with hm | hm
    · obtain ⟨y, _, hy⟩ := List.mem_map.1 hm
      cases hy
      intro e
      rw [e] at hs'
      exact hs' hs.seen
    · exact hs.sent x d (by simpa using hm)
  | lost => exact ⟨hs.seen, hs.judging, hs.judged, hs.sent⟩
  | full => exact ⟨List.mem_cons_of_mem _ hs.seen, hs.judging, hs.judged, hs.sent⟩
  | arrive i p hi hd ho hm hf =>
    refine ⟨List.mem_cons_of_mem _ hs.seen, fun q hq hqv => ?_, hs.judged, hs.sent⟩
    rcases List.mem_append.1 hq with hq | hq
    · exact hs.judging q hq hqv
    · rw [List.mem_singleton] at hq
      subst hq
      intro e
      rw [hqv, e] at hm
      exact hm hs.seen
  | finish i p c e hi hc he => exact shut_judge hs i p e hi
  | skip i p hi hc ht => exact shut_judge hs i p none hi
  | inject p h1 h3 h2 =>
    refine ⟨hs.seen, hs.judging, fun d ok hm => hs.judged d ok (by simpa using hm), fun x d hm => ?_⟩
    rcases List.mem_cons.1 hm with hm | hm
    · simp only [Obs.sent.injEq] at hm
      rw [← hm.1, hv] at h1; cases h1
    · exact hs.sent x d hm
  | forget w x =>
    refine ⟨List.mem_filter.2 ⟨hs.seen, ?_⟩, hs.judging, hs.judged, hs.sent⟩
    simp only [ne_eq, decide_eq_true_eq, Prod.mk.injEq, not_and]
    intro e1 e2
    exact hl (by rw [e1, e2])
  | submit => exact ⟨hs.seen, hs.judging, hs.judged, hs.sent⟩
  | node => exact ⟨hs.seen, hs.judging, hs.judged, hs.sent⟩

private theorem crowd {dur : Int} {clock : Bytes → Int} {v e : Bytes} (hv : n.honest v = true) (he : n.honest e = false) (junk : Nat → Bytes)
    (hj : ∀ i j, i < j → j < n.room → n.sha (junk i) ≠ n.sha (junk j)) (k : Nat) (hk : k ≤ n.room) :
    ∃ s, run n (init dur clock) ((List.range k).flatMap fun i => [.inject (junkAt e v (junk i)), .arrive 0]) = some s ∧ s.flight = [] ∧
      s.judging = (List.range k).map (fun i => junkAt e v (junk i)) ∧ (∀ x ∈ s.seen, ∃ i < k, x = (v, msgID n (junk i))) ∧
      ∀ o ∈ s.log, ∃ d, o = .sent e v d := by
  induction k with
  | zero => exact ⟨init dur clock, rfl, rfl, rfl, fun _ h => (by cases h), fun _ h => (by cases h)⟩
  | succ k ih =>
    obtain ⟨s, h1, h2, h3, h4, h5⟩ := ih (by omega)
    have hev : e ≠ v := fun h => by rw [h, hv] at he; cases he
    have hns : (v, msgID n (junk k)) ∉ s.seen := by
      intro hm
      obtain ⟨i, hi, h⟩ := h4 _ hm
      exact hj i k hi (by omega) ((id_iff n _ _).1 (Prod.mk.inj h).2.symm)
    have hc : s.judging.countP (fun q => q.dest = v) < n.room := by
      have := List.countP_le_length (p := fun q : Packet => decide (q.dest = v)) (l := s.judging)
      have h6 : s.judging.length = k := by rw [h3]; simp
      omega
    refine ⟨{ s with
      seen := (v, msgID n (junk k)) :: s.seen
      flight := []
      judging := s.judging ++ [junkAt e v (junk k)]
      log := .sent e v (junk k) :: s.log }, ?_, rfl, ?_, ?_, ?_⟩
    · rw [List.range_succ, List.flatMap_append, crowd_append, h1]
      simp [run, step, junkAt, he, hv, h2, hns, hev, Nat.not_le.2 hc]
    · rw [List.range_succ, List.map_append, ← h3]; rfl
    · intro x hx
      rcases List.mem_cons.1 hx with hx | hx
      · exact ⟨k, by omega, hx⟩
      · obtain ⟨i, hi, h⟩ := h4 x hx
        exact ⟨i, by omega, h⟩
    · intro o ho
      rcases List.mem_cons.1 ho with ho | ho
      · exact ⟨_, ho⟩
      · exact h5 o ho

end TxFlood

namespace TxFlood
open KP2P.Spec.TxFlood
open KP2P.Flood (Packet erase_or)

variable {n : Net}

/-- The message is being validated, or has been judged. -/
private def Under (p : Packet) (s : State) : Prop := p ∈ s.judging ∨ ∃ ok, Obs.judged p.dest p.msg.data ok ∈ s.log

private theorem under_judge {p q : Packet} {s : State} {i : Nat} {e : Option Err} (hi : s.judging[i]? = some q) (hu : Under p s) :
    Under p (judge n s i q e) := by
  rcases hu with hu | ⟨ok, hu⟩
  · rcases erase_or hu hi with hu | rfl
    · exact Or.inl hu
    · exact Or.inr ⟨_, List.mem_append_right _ (List.mem_cons_self ..)⟩
  · exact Or.inr ⟨ok, List.mem_append_right _ (List.mem_cons_of_mem _ hu)⟩

private theorem under_step {p : Packet} {s s' : State} {l : Label} (h : Tr n s l s') (hu : Under p s) : Under p s' := by
  cases h with
  | again => exact hu.imp_right fun ⟨ok, h⟩ => ⟨ok, List.mem_cons_of_mem _ h⟩
  | publish => exact hu.imp_right fun ⟨ok, h⟩ => ⟨ok, List.mem_append_right _ (List.mem_cons_of_mem _ h)⟩
  | arrive => exact hu.imp_left fun h => List.mem_append_left _ h
  | inject => exact hu.imp_right fun ⟨ok, h⟩ => ⟨ok, List.mem_cons_of_mem _ h⟩
  | finish i q c e hi => exact under_judge hi hu
  | skip i q hi => exact under_judge hi hu
  | _ => exact hu

end TxFlood

open KP2P.TxFlood KP2P.Spec.TxFlood in
open KP2P.Flood (Packet) in
/-- C151 (in part), for transactions. A message that arrives at a node for the first time, while fewer validations go on there than may, is validated:
whatever happens afterwards, it is still being validated or has been judged. -/
theorem C151_tx_taken_partial {n : TxFlood.Net} (s s' : TxFlood.State) (i : Nat) (p : Packet) (hp : s.flight[i]? = some p)
    (hd : n.honest p.dest = true) (ho : p.msg.sender ≠ p.dest) (hns : (p.dest, TxFlood.msgID n p.msg.data) ∉ s.seen)
    (hroom : Roomy n s p.dest) (ls : List TxFlood.Label) (hr : TxFlood.run n s (.arrive i :: ls) = some s') :
    p ∈ s'.judging ∨ ∃ ok, TxFlood.Obs.judged p.dest p.msg.data ok ∈ s'.log := by
  simp only [TxFlood.run] at hr
  split at hr
  · rename_i s1 h1
    refine TxFlood.crowd_ind (TxFlood.Under p) ls (fun s s' l _ hu hst => TxFlood.under_step hst hu) s1 s' ?_ hr
    cases tr_of_step _ _ _ h1 with
    | lost _ q hq hc =>
      rw [hp] at hq; cases hq
      rcases hc with hc | hc | hc
      · rw [hd] at hc; cases hc
      · exact absurd hc ho
      · exact absurd hc hns
    | full _ q hq _ _ _ hf => rw [hp] at hq; cases hq; exact absurd hroom hf
    | arrive _ q hq => rw [hp] at hq; cases hq; exact Or.inl (List.mem_append_right _ (List.mem_singleton_self _))
  · cases hr

open KP2P.TxFlood KP2P.Spec.TxFlood in
open KP2P.Flood (Packet pass) in
/-- C151 (refuted in general), for transactions. The same happens to a transaction that a neighbour has published. -/
theorem C151_tx_displaced_refuted {n : TxFlood.Net} (dur : Int) (clock : Bytes → Int) (a v e : Bytes) (ha : n.honest a = true)
    (hv : n.honest v = true) (he : n.honest e = false) (hav : a ≠ v) (hadj : v ∈ n.adj a) (t : Tx) (junk : Nat → Bytes)
    (hj : ∀ i j, i < j → j < n.room → n.sha (junk i) ≠ n.sha (junk j)) (hb : ∀ i < n.room, n.sha (junk i) ≠ n.sha (n.encode t)) :
    ∃ ls s, TxFlood.run n (TxFlood.init dur clock) ls = some s ∧ (∀ w id, TxFlood.Label.forget w id ∉ ls) ∧
      ls.countP (fun | .inject _ => true | _ => false) = n.room ∧
      TxFlood.Obs.published a t ∈ s.log ∧ TxFlood.Obs.sent a v (n.encode t) ∈ s.log ∧
      ∀ ls' s', TxFlood.run n s ls' = some s' → TxFlood.Label.forget v (TxFlood.msgID n (n.encode t)) ∉ ls' →
        (∀ ok, TxFlood.Obs.judged v (n.encode t) ok ∉ s'.log) ∧ ∀ w, TxFlood.Obs.sent v w (n.encode t) ∉ s'.log := by
  obtain ⟨s, h1, h2, h3, h4, h5⟩ := TxFlood.crowd (dur := dur) (clock := clock) hv he junk hj n.room (Nat.le_refl _)
  let m : GossipValidate.Msg := { data := n.encode t, sender := a, receivedFrom := a, key := a }
  let s1 : TxFlood.State := { s with
    seen := (a, TxFlood.msgID n m.data) :: s.seen
    flight := s.flight ++ pass a m (n.adj a)
    log := (n.adj a).map (.sent a · m.data) ++ .published a t :: s.log }
  have hna : (a, TxFlood.msgID n (n.encode t)) ∉ s.seen := fun hm => by
    obtain ⟨i, hi, h⟩ := h4 _ hm
    exact hav (Prod.mk.inj h).1
  have hnv : (v, TxFlood.msgID n (n.encode t)) ∉ s1.seen := fun hm => by
    rcases List.mem_cons.1 hm with hm | hm
    · exact hav (Prod.mk.inj hm).1.symm
    · obtain ⟨i, hi, h⟩ := h4 _ hm
      exact hb i hi ((TxFlood.id_iff n _ _).1 (Prod.mk.inj h).2.symm)
  have hp1 : TxFlood.step n s (.publish a t) = some s1 := by simp [TxFlood.step, ha, hna, s1, m]
  obtain ⟨i, hi⟩ := List.getElem?_of_mem (show (⟨a, v, m⟩ : Packet) ∈ s1.flight from
    List.mem_append_right _ (List.mem_map.2 ⟨v, hadj, rfl⟩))
  have hfull : n.room ≤ s1.judging.countP (fun q => q.dest = v) := by
    show n.room ≤ s.judging.countP _
    rw [h3, List.countP_map, List.countP_eq_length.2 (fun x _ => by simp [Flood.junkAt])]
    simp
  let s2 : TxFlood.State := { s1 with seen := (v, TxFlood.msgID n m.data) :: s1.seen, flight := s1.flight.eraseIdx i }
  have hp2 : TxFlood.step n s1 (.arrive i) = some s2 := by
    simp only [TxFlood.step, hi]
    rw [if_neg (by simp [hv]), if_neg (by exact hav), if_neg (by exact hnv), if_pos (by exact hfull)]
  refine ⟨((List.range n.room).flatMap fun i => [.inject (Flood.junkAt e v (junk i)), .arrive 0]) ++ [.publish a t, .arrive i], s2,
    ?_, ?_, ?_, ?_, ?_, ?_⟩
  · rw [TxFlood.crowd_append, h1]
    simp [TxFlood.run, hp1, hp2]
  · intro w id hm
    simp at hm
  · rw [List.countP_append, List.countP_flatMap]
    simp [Function.comp_def]
  · exact List.mem_append_right _ (List.mem_cons_self ..)
  · exact List.mem_append_left _ (List.mem_map.2 ⟨v, hadj, rfl⟩)
  · intro ls' s' hr hf
    have := TxFlood.crowd_ind (TxFlood.Shut n v (TxFlood.msgID n (n.encode t))) ls'
      (fun s s' l hl hs hst => TxFlood.shut_step hv (fun e => hf (by rw [← e]; exact hl)) hst hs) s2 s' ?_ hr
    · exact ⟨fun ok hm => this.judged _ _ hm rfl, fun w hm => this.sent _ _ hm rfl⟩
    refine ⟨List.mem_cons_self .., fun p hp _ hid => ?_, fun d ok hm => ?_, fun w d hm => ?_⟩
    · have hp : p ∈ s.judging := hp
      rw [h3] at hp
      obtain ⟨j, hj', rfl⟩ := List.mem_map.1 hp
      exact hb j (List.mem_range.1 hj') ((TxFlood.id_iff n _ _).1 hid)
    · rcases List.mem_append.1 hm with hm | hm
      · simp at hm
      · obtain ⟨d, h⟩ := h5 _ ((List.mem_cons.1 hm).resolve_left (by simp))
        cases h
    · rcases List.mem_append.1 hm with hm | hm
      · obtain ⟨_, _, h⟩ := List.mem_map.1 hm
        cases h; exact absurd rfl hav
      · obtain ⟨d, h⟩ := h5 _ ((List.mem_cons.1 hm).resolve_left (by simp))
        cases h
        rw [hv] at he; cases he

/-- A network with room for one validation: the second message is thrown away, and after the first is done with a third is taken. -/
example :
    let n : Flood.Net := ⟨fun v => decide (v ≠ [9]), fun _ => [], fun _ => [1], fun _ => .error (.other 0), id, 1⟩
    let ls : List Flood.Label := [.inject (Flood.junkAt [9] [2] [5]), .inject (Flood.junkAt [9] [2] [6]), .arrive 0, .arrive 0, .judge 0 0 none,
      .inject (Flood.junkAt [9] [2] [6]), .inject (Flood.junkAt [9] [2] [7]), .arrive 0, .arrive 0]
    (Flood.run n Flood.init ls).map (fun s => (s.flight, s.judging.map (·.msg.data))) = some ([], [[7]]) := by
  decide +kernel

end KP2P

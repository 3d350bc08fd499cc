import Verif.Props.TxFlood
/-!
# C149: what transactions nodes pass on; C150: whom they report over transactions
-/

namespace KP2P
open KP2P.TxFlood KP2P.Spec.TxFlood
open KP2P.Flood (Packet mem_pass)
open KP2P.Spec.TxA (tid Shows answered)

namespace TxFlood

variable {n : Net} {dur : Int}

/-! ## Runs -/

/-- What holds at the start and is kept by the steps of a run holds at its end. -/
theorem run_keeps {P : State → Prop} {K : State → Label → Prop} (hstep : ∀ s s' l, P s → K s l → Tr n s l s' → P s') (ls : List Label) :
    ∀ s s', P s → Along n K s ls → run n s ls = some s' → P s' := by
  induction ls with
  | nil => intro s s' h _ hr; cases hr; exact h
  | cons l ls ih =>
    intro s s' h hk hr
    simp only [run] at hr
    split at hr
    · rename_i s1 hs
      exact ih s1 s' (hstep _ _ _ h hk.1 (tr_of_step _ _ _ hs)) (hk.2 s1 hs) hr
    · cases hr

theorem along_true (ls : List Label) : ∀ s, Along n (fun _ _ => True) s ls := by
  induction ls with
  | nil => intro s; trivial
  | cons l ls ih => intro s; exact ⟨trivial, fun s' _ => ih s'⟩

/-- Everything that holds of runs as such. -/
structure Base (n : Net) (dur : Int) (s : State) : Prop where
  reach : ∀ v, TxA.Reachable dur (s.node v)
  sound : Sound n s

theorem base_init (clock : Bytes → Int) : Base n dur (init dur clock) := ⟨fun v => ⟨clock v, [], rfl⟩, sound_init clock⟩

theorem base_step (s s' : State) (l : Label) (h : Base n dur s) (hst : Tr n s l s') : Base n dur s' :=
  ⟨fun v => reach_next (h.reach v) (here_step hst v), sound_step s s' l h.sound hst⟩

/-! ## What is passed on -/

/-- `u` published this contents, or a call of its applicator for it has returned nil. -/
def Backed (n : Net) (u data : Bytes) (s : State) : Prop :=
  (∃ t, Obs.published u t ∈ s.log ∧ n.encode t = data) ∨
    ∃ t r, n.decode data = .ok t ∧ t.id ≠ none ∧ TxA.Obs.call r t ∈ (s.node u).log ∧ TxA.Obs.returned r none ∈ (s.node u).log

theorem backed_mono {u data : Bytes} {s s' : State} {l : Label} (h : Backed n u data s) (hst : Tr n s l s') : Backed n u data s' := by
  rcases h with ⟨t, h1, h2⟩ | ⟨t, r, h1, h2, h3, h4⟩
  · exact Or.inl ⟨t, log_step _ _ _ hst _ h1, h2⟩
  · exact Or.inr ⟨t, r, h1, h2, (node_mono hst u).1 _ h3, (node_mono hst u).1 _ h4⟩

/-- A validator that accepts has the contents backed. -/
theorem accept_backed {s : State} (hs : Sound n s) {i : Nat} {p : Packet} {e : Option Err} (hi : s.judging[i]? = some p)
    (hcase : (∃ c, callOf s p = some c ∧ resultOf (s.node p.dest).log c.number = some e) ∨ (handed n p = [] ∧ e = none))
    (ha : (GossipValidate.validateTransaction
      { me := p.dest, decode := n.decode, lib := 0, apply := fun _ => e, author := id } p.msg).accept = true) :
    Backed n p.dest p.msg.data s := by
  have hin := List.mem_of_getElem? hi
  obtain ⟨t, ht, hme | ⟨hne, hid, he⟩⟩ := accept_cases p e ha
  · exact absurd hme (hs.own p hin)
  · subst he
    rcases hcase with ⟨c, hc, hr⟩ | ⟨hh, _⟩
    · obtain ⟨h1, h2, h3⟩ := callOf_mem hc
      obtain ⟨_, t', g1, g2, g3⟩ := hs.calls c h1
      rw [h3] at g1
      rw [h2] at g3
      exact Or.inr ⟨t', c.number, g1, g2, g3, result_mem hr⟩
    · rw [(handed_iff (n := n) p t []).2 ⟨ht, hne, hid, rfl⟩] at hh
      cases hh

theorem judge_sent {s : State} {i : Nat} {p : Packet} {e : Option Err} {u w data : Bytes} (h : Obs.sent u w data ∈ (judge n s i p e).log) :
    Obs.sent u w data ∈ s.log ∨ (u = p.dest ∧ data = p.msg.data ∧ (GossipValidate.validateTransaction
      { me := p.dest, decode := n.decode, lib := 0, apply := fun _ => e, author := id } p.msg).accept = true) := by
  unfold judge at h
  simp only [List.mem_append, List.mem_map, List.mem_cons] at h
  rcases h with (⟨a, ha, hb⟩ | ⟨a, ha, hb⟩) | h | h
  · cases hb
    right
    refine ⟨rfl, rfl, ?_⟩
    split at ha
    · assumption
    · cases ha
  · cases hb
  · cases h
  · exact Or.inl h

theorem sent_step (s s' : State) (l : Label) (hs : Sound n s)
    (h : ∀ u w data, Obs.sent u w data ∈ s.log → n.honest u = true → Backed n u data s) (hst : Tr n s l s') :
    ∀ u w data, Obs.sent u w data ∈ s'.log → n.honest u = true → Backed n u data s' := by
  intro u w data hm hu
  have old : Obs.sent u w data ∈ s.log → Backed n u data s' := fun hm => backed_mono (h u w data hm hu) hst
  have hst' := hst
  cases hst with
  | again v t hv hsn =>
    rcases List.mem_cons.1 hm with hm | hm
    · cases hm
    · exact old hm
  | publish v t m hm' hv hsn =>
    rcases List.mem_append.1 hm with hm | hm
    · obtain ⟨a, _, ha⟩ := List.mem_map.1 hm
      cases ha
      exact Or.inl ⟨t, List.mem_append_right _ (List.mem_cons_self ..), rfl⟩
    · rcases List.mem_cons.1 hm with hm | hm
      · cases hm
      · exact old hm
  | inject p h1 h3 h2 =>
    rcases List.mem_cons.1 hm with hm | hm
    · cases hm; rw [h1] at hu; cases hu
    · exact old hm
  | finish i p c e hi hc he =>
    rcases judge_sent hm with hm | ⟨rfl, rfl, ha⟩
    · exact old hm
    · exact backed_mono (accept_backed hs hi (Or.inl ⟨c, hc, he⟩) ha) hst'
  | skip i p hi hc ht =>
    rcases judge_sent hm with hm | ⟨rfl, rfl, ha⟩
    · exact old hm
    · exact backed_mono (accept_backed hs hi (Or.inr ⟨ht, rfl⟩) ha) hst'
  | _ => exact old hm

end TxFlood

/-- C149, what holds: whatever a node sends on the topic of transactions, it published itself, or it is a transaction with an id that it handed to
its applicator, and its chain accepted it then, or the id had been shown to the transaction cache not long before. -/
theorem C149_passed_on_partial {n : Net} {dur : Int} (hd : 0 ≤ dur) {clock : Bytes → Int} {ls : List Label} {s : State}
    (hr : run n (init dur clock) ls = some s) {u w data : Bytes} (hm : Obs.sent u w data ∈ s.log) (hu : n.honest u = true) :
    (∃ t, Obs.published u t ∈ s.log ∧ n.encode t = data) ∨
      ∃ t r, n.decode data = .ok t ∧ t.id ≠ none ∧ TxA.Obs.call r t ∈ (s.node u).log ∧ Covered dur u r t s := by
  have hinv := run_keeps (P := fun s => Base n dur s ∧ ∀ u w data, Obs.sent u w data ∈ s.log → n.honest u = true → Backed n u data s)
    (K := fun _ _ => True) (fun s s' l h _ hst => ⟨base_step s s' l h.1 hst, sent_step s s' l h.1.sound h.2 hst⟩) ls _ _
    ⟨base_init clock, fun u w data h => (by cases h)⟩ (along_true ls _) hr
  rcases hinv.2 u w data hm hu with h | ⟨t, r, g1, g2, g3, h4⟩
  · exact Or.inl h
  · right
    obtain ⟨tx, e1, e2⟩ := C04_success_partial dur hd _ (hinv.1.reach u) r h4
    obtain ⟨now, xs, hrun⟩ := hinv.1.reach u
    cases (TxA.reqInv_run hrun).calls1 _ _ _ g3 e1
    exact ⟨t, r, g1, g2, g3, e2⟩

/-- A run that passes the transaction on, as in C149. -/
example : ∃ s, run tNet (init 10 fun _ => 0) tRun = some s ∧ Obs.sent tB tC [1] ∈ s.log ∧ tNet.honest tB = true :=
  ⟨_, rfl, by decide +kernel, by decide⟩

namespace TxFlood

/-- Somebody sends B a transaction, which the chain of B refuses, and sends it again in another encoding. C asks its own chain. -/
def tResent : List Label :=
  [.inject (tFrom tB [1]), .arrive 0] ++ tAsk tB 0 (some (.other 1)) ++
  [.inject (tFrom tB [3]), .arrive 0, .submit 0, .node tB (.work 0), .node tB (.callerReturns 1), .finish 0, .arrive 1] ++
  tAsk tC 0 (some (.other 1))

end TxFlood

/-- C149 is false as stated: a node passes on a transaction that its own chain has refused and never accepted, if it is sent again in another
encoding. -/
theorem C149_resent_refuted : ∃ (n : Net) (ls : List Label) (s : State) (u w data : Bytes) (t : Tx),
    run n (init 10 fun _ => 0) ls = some s ∧ n.honest u = true ∧ Obs.sent u w data ∈ s.log ∧ n.decode data = .ok t ∧
    (∃ r e, TxA.Obs.verdict r t (some e) ∈ (s.node u).log) ∧ (∀ r, TxA.Obs.verdict r t none ∉ (s.node u).log) ∧
    (∀ v t, Obs.published v t ∉ s.log) ∧ ∀ p ∈ (s.node u).passes, p.req ≠ none := by
  refine ⟨tNet, tResent, (run tNet (init 10 fun _ => 0) tResent).getD tStart, tB, tC, [3], tGood, ?_, by decide, by decide +kernel,
    by decide +kernel, ⟨0, .other 1, by decide +kernel⟩, fun r h => ?_, fun v t h => ?_, fun p hp => ?_⟩
  · have : (run tNet (init 10 fun _ => 0) tResent).isSome = true := by decide +kernel
    obtain ⟨s, hs⟩ := Option.isSome_iff_exists.1 this
    rw [hs]; rfl
  · have : (((run tNet (init 10 fun _ => 0) tResent).getD tStart).node tB).log.all
        (fun | .verdict _ _ none => false | _ => true) = true := by decide +kernel
    have := List.all_eq_true.1 this _ h
    cases this
  · have : ((run tNet (init 10 fun _ => 0) tResent).getD tStart).log.all (fun | .published _ _ => false | _ => true) = true := by
      decide +kernel
    have := List.all_eq_true.1 this _ h
    cases this
  · have : (((run tNet (init 10 fun _ => 0) tResent).getD tStart).node tB).passes.all (fun p => p.req.isSome) = true := by decide +kernel
    have := List.all_eq_true.1 this _ hp
    intro h
    rw [h] at this
    cases this

/-! ## C150 -/

namespace TxFlood

variable {n : Net} {dur : Int}

/-- Each call passes the cache at most once. -/
theorem pass_once {s : TxA.State} (h : TxA.Reachable dur s) : (s.queue.map Prod.fst ++ s.passes.filterMap TxA.Pass.req).Nodup := by
  obtain ⟨now, ls, hr⟩ := h
  have : TxA.ReqInv s ∧ Passed s ∧ (s.queue.map Prod.fst ++ s.passes.filterMap TxA.Pass.req).Nodup := by
    refine TxA.run_ind (P := fun s => TxA.ReqInv s ∧ Passed s ∧ (s.queue.map Prod.fst ++ s.passes.filterMap TxA.Pass.req).Nodup)
      (fun s l s' h hs => ?_) ls _ s ⟨TxA.reqInv_init dur now, fun p hp => (by cases hp), List.nodup_nil⟩ hr
    obtain ⟨h1, h2, h3⟩ := h
    have he := TxA.step_eff hs
    refine ⟨TxA.reqInv_step h1 he, passed_step h2 h1 he, ?_⟩
    have move : ∀ i r tx m, s.queue[i]? = some (r, tx) →
        ((s.queue.eraseIdx i).map Prod.fst ++ (s.passes ++ [(⟨s.now, [tx], some r, m⟩ : TxA.Pass)]).filterMap TxA.Pass.req).Nodup := by
      intro i r tx m hq
      have hp := (TxA.perm_erase hq).map Prod.fst
      rw [List.filterMap_append]
      refine (List.Perm.nodup_iff ?_).1 h3
      refine (hp.append_right _).trans ?_
      simp only [List.map_cons, List.cons_append, List.filterMap_cons, List.filterMap_nil]
      rw [← List.append_assoc]
      exact List.perm_append_comm (l₁ := [r])
    cases he with
    | call tx =>
      have hp : ((s.queue ++ [(s.nextReq, tx)]).map Prod.fst ++ s.passes.filterMap TxA.Pass.req).Perm
          (s.nextReq :: (s.queue.map Prod.fst ++ s.passes.filterMap TxA.Pass.req)) := by
        rw [List.map_append]
        simp only [List.map_cons, List.map_nil, List.append_assoc]
        exact List.perm_middle
      show ((s.queue ++ [(s.nextReq, tx)]).map Prod.fst ++ s.passes.filterMap TxA.Pass.req).Nodup
      rw [hp.nodup_iff, List.nodup_cons]
      refine ⟨fun hm => ?_, h3⟩
      rcases List.mem_append.1 hm with hm | hm
      · obtain ⟨x, hx, e⟩ := List.mem_map.1 hm
        have := h1.calls _ _ (h1.qcall x hx)
        omega
      · obtain ⟨p, hp, e⟩ := List.mem_filterMap.1 hm
        obtain ⟨tx', _, h5, _⟩ := h2 p hp _ e
        have := h1.calls _ _ h5
        omega
    | admit i r tx c hq hc => exact move i r tx 0 hq
    | hit i r tx c m hq hc hm => exact move i r tx m hq
    | broadcast txs c m hc =>
      rw [List.filterMap_append]
      simpa using h3
    | _ => exact h3
  exact this.2.2

theorem pass_unique {s : TxA.State} (h : TxA.Reachable dur s) {p q : TxA.Pass} {r : Nat} (hp : p ∈ s.passes) (hq : q ∈ s.passes)
    (h1 : p.req = some r) (h2 : q.req = some r) : p = q := by
  have hn := (List.nodup_append.1 (pass_once h)).2.1
  revert hn
  generalize s.passes = l at hp hq
  induction l with
  | nil => cases hp
  | cons x xs ih =>
    intro hn
    have rest : ∀ y ∈ xs, y.req = some r → x.req ≠ some r := by
      intro y hy hyr hxr
      rw [List.filterMap_cons_some hxr, List.nodup_cons] at hn
      exact hn.1 (List.mem_filterMap.2 ⟨y, hy, hyr⟩)
    rcases List.mem_cons.1 hp with ep | hp' <;> rcases List.mem_cons.1 hq with eq | hq'
    · rw [ep, eq]
    · exact absurd (ep ▸ h1) (rest q hq' h2)
    · exact absurd (eq ▸ h2) (rest p hp' h1)
    · refine ih hp' hq' ?_
      cases hx : x.req with
      | none => rw [List.filterMap_cons_none hx] at hn; exact hn
      | some r' => rw [List.filterMap_cons_some hx, List.nodup_cons] at hn; exact hn.2

/-- The contents is a transaction with an id that the chains accept. -/
def Fine (n : Net) (verdict : Tx → Option Err) (data : Bytes) : Prop := ∃ t, n.decode data = .ok t ∧ t.id ≠ none ∧ verdict t = none

/-- Whenever a call of a transaction that the chains refuse passed the cache, the id had not been shown to it for a while. -/
def Fresh (dur : Int) (verdict : Tx → Option Err) (x : TxA.State) : Prop :=
  ∀ a q c, x.passes = a ++ q :: c → ∀ r t, q.req = some r → q.txs = [t] → verdict t ≠ none → ∀ p ∈ a, Shows p (tid t) → dur < q.time - p.time

structure Peace (n : Net) (dur : Int) (verdict : Tx → Option Err) (s : State) : Prop where
  verd : ∀ v r t e, TxA.Obs.verdict r t e ∈ (s.node v).log → e = verdict t
  blocks : ∀ v, ∀ p ∈ (s.node v).passes, p.req = none → ∀ t ∈ p.txs, verdict t = none
  ret : ∀ v r e, TxA.Obs.returned r e ∈ (s.node v).log → TxA.Obs.answer r e ∈ (s.node v).log
  once : (s.calls.map fun c => (c.node, c.data)).Nodup
  /-- the call of a transaction that the chains refuse is known, or its message has been forgotten long after it passed the cache -/
  called : ∀ v r t, TxA.Obs.call r t ∈ (s.node v).log → verdict t = none ∨
    (∃ c ∈ s.calls, c.node = v ∧ c.number = r ∧ n.decode c.data = .ok t) ∨
    ∃ q ∈ (s.node v).passes, q.req = some r ∧ dur < (s.node v).now - q.time
  busy : ∀ c ∈ s.calls, (∃ p ∈ s.judging, p.dest = c.node ∧ p.msg.data = c.data) ∨ ∃ e, TxA.Obs.returned c.number e ∈ (s.node c.node).log
  /-- calls of transactions that the chains refuse do not find them in the cache -/
  fresh : ∀ v, Fresh dur verdict (s.node v)
  fine : ∀ p, p ∈ s.flight ∨ p ∈ s.judging → p.msg.receivedFrom = p.source ∧ (n.honest p.source = true → Fine n verdict p.msg.data)
  pubs : ∀ v t, Obs.published v t ∈ s.log → Fine n verdict (n.encode t)
  reps : ∀ v p e, Obs.reported v p e ∈ s.log → n.honest p = false

/-- A call returns what the chains think of its transaction. -/
theorem returned_verdict (hd : 0 ≤ dur) {verdict : Tx → Option Err} {s : State} (hb : Base n dur s)
    (hp : Peace n dur verdict s) {c : Call} (hc : c ∈ s.calls) {t : Tx} (ht : n.decode c.data = .ok t) {e : Option Err}
    (he : TxA.Obs.returned c.number e ∈ (s.node c.node).log) : e = verdict t := by
  have ha := hp.ret _ _ _ he
  obtain ⟨now, ls, hrun⟩ := hb.reach c.node
  have hi := TxA.reqInv_run hrun
  obtain ⟨_, t', g1, _, g3⟩ := hb.sound.calls c hc
  rw [ht] at g1
  cases g1
  obtain ⟨tx, e1, e2⟩ := hi.ans _ _ ha
  cases hi.calls1 _ _ _ g3 e1
  rcases e2 with e2 | ⟨rfl, _⟩
  · exact hp.verd _ _ _ _ e2
  obtain ⟨tx, k1, k2⟩ := C04_success_partial dur hd _ (hb.reach c.node) c.number he
  cases hi.calls1 _ _ _ g3 k1
  rcases k2 with k2 | ⟨a, q, d, q1, q2, q3, p, p1, p2, p3⟩
  · exact hp.verd _ _ _ _ k2
  · by_contra hne
    have := hp.fresh c.node a q d q1 _ t q2 q3 (Ne.symm hne) p p1 p2
    omega

/-- A call of a transaction that the chains refuse, while it waits for a worker: nothing with that id has been shown to the cache for a while. -/
theorem queue_fresh {verdict : Tx → Option Err} (hids : ∀ t t', tid t = tid t' → verdict t = verdict t')
    (hcan : ∀ d d' t t', n.decode d = .ok t → n.decode d' = .ok t' → tid t = tid t' → d = d') {s : State} (hb : Base n dur s)
    (hp : Peace n dur verdict s) (v : Bytes) {i r : Nat} {t : Tx} (hq : (s.node v).queue[i]? = some (r, t)) (hv : verdict t ≠ none)
    {p : TxA.Pass} (hpm : p ∈ (s.node v).passes) (hs : Shows p (tid t)) : dur < (s.node v).now - p.time := by
  have hin := List.mem_of_getElem? hq
  obtain ⟨now, ls, hrun⟩ := hb.reach v
  have hi := TxA.reqInv_run hrun
  have hno : ∀ q ∈ (s.node v).passes, q.req ≠ some r := by
    intro q hqm hqr
    exact (List.nodup_append.1 (pass_once (hb.reach v))).2.2 r (List.mem_map.2 ⟨_, hin, rfl⟩) r (List.mem_filterMap.2 ⟨q, hqm, hqr⟩) rfl
  obtain ⟨t', ht', hid⟩ := hs
  have hv' : verdict t' ≠ none := by rw [hids _ _ hid]; exact hv
  cases hr : p.req with
  | none => exact absurd (hp.blocks v p hpm hr t' ht') hv'
  | some r' =>
    obtain ⟨tx, e1, e2, _⟩ := passed_reach (hb.reach v) p hpm r' hr
    rw [e1, List.mem_singleton] at ht'
    subst ht'
    rcases hp.called v r' t' e2 with h | ⟨c', c1, c2, c3, c4⟩ | ⟨q, q1, q2, q3⟩
    · exact absurd h hv'
    · rcases hp.called v r t (hi.qcall _ hin) with h | ⟨c, d1, d2, d3, d4⟩ | ⟨q, q1, q2, q3⟩
      · exact absurd h hv
      · have hdata : c'.data = c.data := hcan _ _ _ _ c4 d4 hid
        have hcc : c' = c := List.inj_on_of_nodup_map hp.once c1 d1 (by rw [c2, d2, hdata])
        subst hcc
        exact absurd (by rw [hr, ← c3, d3]) (hno p hpm)
      · exact absurd q2 (hno q q1)
    · rw [← pass_unique (hb.reach v) hpm q1 hr q2] at q3
      exact q3

theorem fresh_step {verdict : Tx → Option Err} {x x' : TxA.State} {l : TxA.Label} (hf : Fresh dur verdict x) (hst : TxA.step x l = some x')
    (hq : ∀ (i r : Nat) (t : Tx), x.queue[i]? = some (r, t) → verdict t ≠ none → ∀ p ∈ x.passes, Shows p (tid t) → dur < x.now - p.time) :
    Fresh dur verdict x' := by
  have add : ∀ q : TxA.Pass, (∀ r t, q.req = some r → q.txs = [t] → verdict t ≠ none → ∀ p ∈ x.passes, Shows p (tid t) → dur < q.time - p.time) →
      ∀ y : TxA.State, y.passes = x.passes ++ [q] → Fresh dur verdict y := by
    intro q hnew y hy a q' c he r t h1 h2 h3 p hpa hs
    rw [hy] at he
    rcases List.eq_nil_or_concat c with rfl | ⟨c', z, rfl⟩
    · obtain ⟨e1, e2⟩ := List.append_inj' he rfl
      cases e2
      exact hnew r t h1 h2 h3 p (by rw [e1]; exact hpa) hs
    · have : x.passes ++ [q] = (a ++ q' :: c') ++ [z] := by rw [he]; simp
      obtain ⟨e1, _⟩ := List.append_inj' this rfl
      exact hf a q' c' e1 r t h1 h2 h3 p hpa hs
  have same : x'.passes = x.passes → Fresh dur verdict x' := fun e a q c he => hf a q c (by rw [← e]; exact he)
  cases TxA.step_eff hst with
  | admit i r tx c hqi hc =>
    refine add _ (fun r' t h1 h2 h3 => ?_) _ rfl
    cases h1; cases h2
    exact hq i r tx hqi h3
  | hit i r tx c m hqi hc hm =>
    refine add _ (fun r' t h1 h2 h3 => ?_) _ rfl
    cases h1; cases h2
    exact hq i r tx hqi h3
  | broadcast txs c m hc => exact add _ (fun r' t h1 => by cases h1) _ rfl
  | _ => exact same rfl

theorem now_mono {x x' : TxA.State} {l : TxA.Label} (h : TxA.step x l = some x') : x.now ≤ x'.now := by
  cases TxA.step_eff h with
  | tick d => show x.now ≤ x.now + d; omega
  | _ => exact Int.le_refl _

/-- A call that has returned what the applicator answered has passed the cache. -/
theorem answered_passed {x : TxA.State} (h : TxA.ReqInv x) {r : Nat} {e : Option Err} (ha : TxA.Obs.answer r e ∈ x.log) :
    ∃ t, TxA.Obs.call r t ∈ x.log ∧ ∃ q ∈ x.passes, q.req = some r ∧ q.txs = [t] := by
  obtain ⟨tx, e1, e2 | ⟨_, p, p1, p2, p3, _⟩⟩ := h.ans _ _ ha
  · obtain ⟨_, h3⟩ := h.verd _ _ _ e2
    obtain ⟨_, p, p1, p2, p3, _⟩ := h.subm _ _ _ h3
    exact ⟨tx, e1, p, p1, p2, p3⟩
  · exact ⟨tx, e1, p, p1, p2, p3⟩

end TxFlood

namespace TxFlood

variable {n : Net} {dur : Int}

/-- What one step of the applicator does, if chains agree and nobody gives up. -/
theorem peace_node {verdict : Tx → Option Err} {x x' : TxA.State} {l : TxA.Label} (hst : TxA.step x l = some x')
    (hl : ∀ i e, l = .rpcReturn i e → ∀ j, x.jobs[i]? = some j → e = verdict j.tx) (hb : ∀ txs, l = .broadcast txs → ∀ t ∈ txs, verdict t = none)
    (hg : ∀ r e, l ≠ .callerGivesUp r e) :
    ((∀ r t e, TxA.Obs.verdict r t e ∈ x.log → e = verdict t) → ∀ r t e, TxA.Obs.verdict r t e ∈ x'.log → e = verdict t) ∧
    ((∀ p ∈ x.passes, p.req = none → ∀ t ∈ p.txs, verdict t = none) → ∀ p ∈ x'.passes, p.req = none → ∀ t ∈ p.txs, verdict t = none) ∧
    ((∀ r e, TxA.Obs.returned r e ∈ x.log → TxA.Obs.answer r e ∈ x.log) → ∀ r e, TxA.Obs.returned r e ∈ x'.log → TxA.Obs.answer r e ∈ x'.log) ∧
    (isCall l = false → ∀ r t, TxA.Obs.call r t ∈ x'.log → TxA.Obs.call r t ∈ x.log) := by
  have mem : ∀ {o a : TxA.Obs} {L : List TxA.Obs}, o ∈ a :: L → o ≠ a → o ∈ L := fun h hne => (List.mem_cons.1 h).resolve_left hne
  cases l with
  | call tx =>
    simp only [TxA.step, Option.some.injEq] at hst
    subst hst
    exact ⟨fun h r t e hm => h r t e (mem hm (by simp)), id, fun h r e hm => List.mem_cons_of_mem _ (h r e (mem hm (by simp))), fun h => (by cases h)⟩
  | work i =>
    simp only [TxA.step] at hst
    split at hst
    · cases hst
    rename_i r tx hq
    split at hst
    · cases hst; exact ⟨id, id, id, fun _ _ _ h => h⟩
    rename_i c m hc
    have pas : ∀ m', (∀ p ∈ x.passes, p.req = none → ∀ t ∈ p.txs, verdict t = none) →
        ∀ p ∈ x.passes ++ [(⟨x.now, [tx], some r, m'⟩ : TxA.Pass)], p.req = none → ∀ t ∈ p.txs, verdict t = none := by
      intro m' h p hp hpr
      rcases List.mem_append.1 hp with hp | hp
      · exact h p hp hpr
      · rw [List.mem_singleton] at hp; subst hp; cases hpr
    split at hst
    · cases hst; exact ⟨id, pas _, id, fun _ _ _ h => h⟩
    · cases hst
      exact ⟨fun h r t e hm => h r t e (mem hm (by simp)), pas _, fun h r e hm => List.mem_cons_of_mem _ (h r e (mem hm (by simp))),
        fun _ r t hm => mem hm (by simp)⟩
  | submit i =>
    simp only [TxA.step] at hst
    split at hst
    · cases hst
      exact ⟨fun h r t e hm => h r t e (mem hm (by simp)), id, fun h r e hm => List.mem_cons_of_mem _ (h r e (mem hm (by simp))),
        fun _ r t hm => mem hm (by simp)⟩
    · cases hst
  | rpcReturn i e =>
    simp only [TxA.step] at hst
    split at hst
    · rename_i r tx hj
      cases hst
      refine ⟨fun h r' t e' hm => ?_, id, fun h r e hm => List.mem_cons_of_mem _ (List.mem_cons_of_mem _ (h r e (mem (mem hm (by simp)) (by simp)))),
        fun _ r t hm => mem (mem hm (by simp)) (by simp)⟩
      have hm := mem hm (by simp)
      rcases List.mem_cons.1 hm with hm | hm
      · cases hm; exact hl i e rfl _ hj
      · exact h _ _ _ hm
    · cases hst
  | broadcast txs =>
    simp only [TxA.step] at hst
    split at hst
    · cases hst; exact ⟨id, id, id, fun _ _ _ h => h⟩
    · cases hst
      refine ⟨id, fun h p hp hpr => ?_, id, fun _ _ _ h => h⟩
      rcases List.mem_append.1 hp with hp | hp
      · exact h p hp hpr
      · rw [List.mem_singleton] at hp; subst hp; exact hb txs rfl
  | callerReturns r =>
    simp only [TxA.step] at hst
    split at hst
    · split at hst
      · rename_i e he
        cases hst
        refine ⟨fun h r t e hm => h r t e (mem hm (by simp)), id, fun h r' e' hm => ?_, fun _ r t hm => mem hm (by simp)⟩
        rcases List.mem_cons.1 hm with hm | hm
        · cases hm; exact List.mem_cons_of_mem _ (TxA.answerOf_mem he)
        · exact List.mem_cons_of_mem _ (h _ _ hm)
      · cases hst
    · cases hst
  | callerGivesUp r e => exact absurd rfl (hg r e)
  | tick d =>
    simp only [TxA.step, Option.some.injEq] at hst
    subst hst
    exact ⟨id, id, id, fun _ _ _ h => h⟩

theorem here_agreed {verdict : Tx → Option Err} {s s' : State} {l : Label} (hst : Tr n s l s') (ha : Agreed n dur verdict s l) (v : Bytes) :
    (∀ i e, here n v s l = .rpcReturn i e → ∀ j, (s.node v).jobs[i]? = some j → e = verdict j.tx) ∧
    (∀ txs, here n v s l = .broadcast txs → ∀ t ∈ txs, verdict t = none) ∧ (∀ r e, here n v s l ≠ .callerGivesUp r e) := by
  cases hst with
  | submit i p t ts x hi hc ht hx =>
    simp only [here, hi, ht]
    split
    · exact ⟨fun _ _ h => (by cases h), fun _ h => (by cases h), fun _ _ h => (by cases h)⟩
    · exact ⟨fun _ _ h => (by cases h), fun _ h => (by cases h), fun _ _ h => (by cases h)⟩
  | node w l x hw hl hx =>
    simp only [here]
    by_cases hv : w = v
    · subst hv
      rw [if_pos rfl]
      refine ⟨fun i e h => ?_, fun txs h => ?_, fun r e h => ?_⟩
      · subst h; exact ha
      · subst h; exact ha
      · subst h; exact ha
    · rw [if_neg hv]
      exact ⟨fun _ _ h => (by cases h), fun _ h => (by cases h), fun _ _ h => (by cases h)⟩
  | _ => exact ⟨fun _ _ h => (by cases h), fun _ h => (by cases h), fun _ _ h => (by cases h)⟩

theorem peace_judge {verdict : Tx → Option Err} {s : State} (hb : Base n dur s) (hp : Peace n dur verdict s) {i : Nat} {p : Packet} {e : Option Err}
    (hi : s.judging[i]? = some p)
    (hcall : ∀ c ∈ s.calls, c.node = p.dest → c.data = p.msg.data → ∃ e, TxA.Obs.returned c.number e ∈ (s.node c.node).log) (hcase : ∀ t, n.decode p.msg.data = .ok t → t.id ≠ none → p.msg.sender ≠ p.dest → e = verdict t) :
    Peace n dur verdict (judge n s i p e) := by
  have hin := List.mem_of_getElem? hi
  have hacc : (GossipValidate.validateTransaction
      { me := p.dest, decode := n.decode, lib := 0, apply := fun _ => e, author := id } p.msg).accept = true → Fine n verdict p.msg.data := by
    intro ha
    obtain ⟨t, ht, hme | ⟨hne, hid, he⟩⟩ := accept_cases p e ha
    · exact absurd hme (hb.sound.own p hin)
    · exact ⟨t, ht, hid, by rw [← hcase t ht hid hne, he]⟩
  refine ⟨hp.verd, hp.blocks, hp.ret, hp.once, hp.called, fun c hc => ?_, hp.fresh, fun q hq => ?_, fun v t hm => ?_, fun v w x hm => ?_⟩
  · rcases hp.busy c hc with ⟨q, hq, h1, h2⟩ | h
    · rcases Flood.erase_or hq hi with hq | rfl
      · exact Or.inl ⟨q, hq, h1, h2⟩
      · exact Or.inr (hcall c hc h1.symm h2.symm)
    · exact Or.inr h
  · rcases hq with hq | hq
    · rcases List.mem_append.1 hq with hq | hq
      · exact hp.fine q (Or.inl hq)
      · obtain ⟨h1, h2, h3, _, h5⟩ := mem_pass hq
        refine ⟨by rw [h5, h1], fun _ => ?_⟩
        rw [h3]
        split at h2
        · rename_i ha; exact hacc ha
        · cases h2
    · exact hp.fine q (Or.inr (List.mem_of_mem_eraseIdx hq))
  · refine hp.pubs v t ?_
    simpa [judge] using hm
  · unfold judge at hm
    simp only [List.mem_append, List.mem_map, List.mem_cons, Option.mem_toList] at hm
    rcases hm with (⟨a, _, ha⟩ | ⟨a, ha, hb'⟩) | hm | hm
    · cases ha
    · cases hb'
      -- the peer reported is the one the packet came from, and its contents is not accepted
      have hrep : a.1 = p.msg.receivedFrom ∧ (GossipValidate.validateTransaction
          { me := p.dest, decode := n.decode, lib := 0, apply := fun _ => e, author := id } p.msg).accept = false := by
        revert ha
        unfold GossipValidate.validateTransaction
        split
        · intro ha; cases ha
        · intro ha
          simp only [Option.some.injEq] at ha
          exact ⟨by rw [← ha], rfl⟩
      obtain ⟨h1, h2⟩ := hrep
      obtain ⟨h3, h4⟩ := hp.fine p (Or.inr hin)
      rw [h1, h3]
      by_contra hh
      obtain ⟨t, ht, hid, hv⟩ := h4 (by simpa using hh)
      by_cases hme : p.msg.sender = p.dest
      · simp [GossipValidate.validateTransaction, GossipValidate.applyTransaction, ht, hme] at h2
      · rw [hcase t ht hid hme, hv] at h2
        have := judge_accept (n := n) p t ht hid
        rw [this] at h2
        cases h2
    · cases hm
    · exact hp.reps _ _ _ hm

theorem peace_step (hd : 0 ≤ dur) {verdict : Tx → Option Err} (hids : ∀ t t', tid t = tid t' → verdict t = verdict t')
    (hcan : ∀ d d' t t', n.decode d = .ok t → n.decode d' = .ok t' → tid t = tid t' → d = d') (s s' : State) (l : Label) (hb : Base n dur s)
    (hp : Peace n dur verdict s) (ha : Agreed n dur verdict s l) (hst : Tr n s l s') : Peace n dur verdict s' := by
  have hnode := fun v => peace_node (here_step hst v) (here_agreed hst ha v).1 (here_agreed hst ha v).2.1 (here_agreed hst ha v).2.2
  have h1 : ∀ v r t e, TxA.Obs.verdict r t e ∈ (s'.node v).log → e = verdict t := fun v => (hnode v).1 (hp.verd v)
  have h2 : ∀ v, ∀ p ∈ (s'.node v).passes, p.req = none → ∀ t ∈ p.txs, verdict t = none := fun v => (hnode v).2.1 (hp.blocks v)
  have h3 : ∀ v r e, TxA.Obs.returned r e ∈ (s'.node v).log → TxA.Obs.answer r e ∈ (s'.node v).log := fun v => (hnode v).2.2.1 (hp.ret v)
  have h4 : ∀ v, isCall (here n v s l) = false → ∀ r t, TxA.Obs.call r t ∈ (s'.node v).log → TxA.Obs.call r t ∈ (s.node v).log :=
    fun v => (hnode v).2.2.2
  have h5 : ∀ v, Fresh dur verdict (s'.node v) := fun v => fresh_step (hp.fresh v) (here_step hst v)
    fun i r t hq hv p hpm hs => queue_fresh hids hcan hb hp v hq hv hpm hs
  have old : ∀ v q r, q ∈ (s.node v).passes → q.req = some r → dur < (s.node v).now - q.time →
      ∃ q ∈ (s'.node v).passes, q.req = some r ∧ dur < (s'.node v).now - q.time := fun v q r hq hr ht =>
    ⟨q, (node_mono hst v).2 q hq, hr, by have := now_mono (here_step hst v); omega⟩
  have hlog := fun v => (node_mono hst v).1
  cases hst with
  | again v t hv hs =>
    refine ⟨hp.verd, hp.blocks, hp.ret, hp.once, hp.called, hp.busy, hp.fresh, hp.fine, fun v' t' hm => ?_, fun v' p e hm => ?_⟩
    · rcases List.mem_cons.1 hm with hm | hm
      · cases hm; exact ⟨t, ha.2.1, ha.2.2, ha.1⟩
      · exact hp.pubs _ _ hm
    · exact hp.reps _ _ _ ((List.mem_cons.1 hm).resolve_left (by simp))
  | publish v t m hm' hv hs =>
    have hfine : Fine n verdict (n.encode t) := ⟨t, ha.2.1, ha.2.2, ha.1⟩
    refine ⟨hp.verd, hp.blocks, hp.ret, hp.once, hp.called, hp.busy, hp.fresh, fun q hq => ?_, fun v' t' hm => ?_,
      fun v' p e hm => ?_⟩
    · rcases hq with hq | hq
      · rcases List.mem_append.1 hq with hq | hq
        · exact hp.fine q (Or.inl hq)
        · obtain ⟨g1, _, g2, _, g3⟩ := mem_pass hq
          refine ⟨by rw [g3, g1], fun _ => ?_⟩
          rw [g2, hm']
          exact hfine
      · exact hp.fine q (Or.inr hq)
    · rcases List.mem_append.1 hm with hm | hm
      · simp at hm
      · rcases List.mem_cons.1 hm with hm | hm
        · cases hm; exact hfine
        · exact hp.pubs _ _ hm
    · rcases List.mem_append.1 hm with hm | hm
      · simp at hm
      · exact hp.reps _ _ _ ((List.mem_cons.1 hm).resolve_left (by simp))
  | lost i p hi hc =>
    exact ⟨hp.verd, hp.blocks, hp.ret, hp.once, hp.called, hp.busy, hp.fresh, fun q hq => hp.fine q (hq.imp_left List.mem_of_mem_eraseIdx), hp.pubs, hp.reps⟩
  | full i p hi =>
    exact ⟨hp.verd, hp.blocks, hp.ret, hp.once, hp.called, hp.busy, hp.fresh, fun q hq => hp.fine q (hq.imp_left List.mem_of_mem_eraseIdx), hp.pubs, hp.reps⟩
  | arrive i p hi hd' ho hs =>
    refine ⟨hp.verd, hp.blocks, hp.ret, hp.once, hp.called,
      fun c hc => (hp.busy c hc).imp_left fun ⟨q, hq, h⟩ => ⟨q, List.mem_append_left _ hq, h⟩, hp.fresh, fun q hq => hp.fine q ?_, hp.pubs, hp.reps⟩
    rcases hq with hq | hq
    · exact Or.inl (List.mem_of_mem_eraseIdx hq)
    · rcases List.mem_append.1 hq with hq | hq
      · exact Or.inr hq
      · rw [List.mem_singleton] at hq; subst hq; exact Or.inl (List.mem_of_getElem? hi)
  | forget w id hj =>
    refine ⟨hp.verd, hp.blocks, hp.ret, hp.once.sublist (List.filter_sublist.map _), fun v r t hc => ?_,
      fun c hc => hp.busy c (List.mem_of_mem_filter hc), hp.fresh, hp.fine, hp.pubs, hp.reps⟩
    rcases hp.called v r t hc with h | ⟨c, k1, k2, k3, k4⟩ | h
    · exact Or.inl h
    · by_cases hw : c.node = w ∧ msgID n c.data = id
      · rcases ha c.data t k4 hw.2 with h | h
        · exact Or.inl h
        · right; right
          rcases hp.busy c k1 with ⟨p, p1, p2, p3⟩ | ⟨e, he⟩
          · exact absurd ⟨p2.trans hw.1, by rw [p3]; exact hw.2⟩ (hj p p1)
          · obtain ⟨now, ls, hrun⟩ := hb.reach c.node
            have hi := TxA.reqInv_run hrun
            obtain ⟨t', g1, q, g2, g3, g4⟩ := answered_passed hi (hp.ret _ _ _ he)
            rw [k3] at g1 g3
            rw [k2] at g1 g2 hi
            cases hi.calls1 _ _ _ hc g1
            rw [← hw.1, k2] at h
            exact ⟨q, g2, g3, h q g2 ⟨t, by rw [g4]; simp, rfl⟩⟩
      · exact Or.inr (Or.inl ⟨c, List.mem_filter.2 ⟨k1, by simp only [Bool.not_eq_true', decide_eq_false_iff_not]; exact hw⟩, k2, k3, k4⟩)
    · exact Or.inr (Or.inr h)
  | inject p g1 g3 g2 =>
    refine ⟨hp.verd, hp.blocks, hp.ret, hp.once, hp.called, hp.busy, hp.fresh, fun q hq => ?_, fun v t hm => hp.pubs v t ((List.mem_cons.1 hm).resolve_left (by simp)),
      fun v q e hm => hp.reps v q e ((List.mem_cons.1 hm).resolve_left (by simp))⟩
    rcases hq with hq | hq
    · rcases List.mem_append.1 hq with hq | hq
      · exact hp.fine q (Or.inl hq)
      · rw [List.mem_singleton] at hq; subst hq; exact ⟨g3, fun h => (by rw [g1] at h; cases h)⟩
    · exact hp.fine q (Or.inr hq)
  | submit i p t ts x hi hc ht hx =>
    refine ⟨h1, h2, h3, ?_, fun v r t' hm => ?_, fun c hcm => ?_, h5, hp.fine, hp.pubs, hp.reps⟩
    · rw [List.map_append, List.nodup_append]
      refine ⟨hp.once, by simp, ?_⟩
      rintro a ha' b hb' rfl
      obtain ⟨c, hcm, rfl⟩ := List.mem_map.1 ha'
      simp only [List.map_cons, List.map_nil, List.mem_singleton, Prod.mk.injEq] at hb'
      exact callOf_none hc c hcm hb'.1 hb'.2
    · have old' : TxA.Obs.call r t' ∈ (s.node v).log → verdict t' = none ∨
          (∃ c ∈ s.calls ++ [⟨p.dest, p.msg.data, (s.node p.dest).nextReq⟩], c.node = v ∧ c.number = r ∧ n.decode c.data = .ok t') ∨
          ∃ q ∈ (Function.update s.node p.dest x v).passes, q.req = some r ∧ dur < (Function.update s.node p.dest x v).now - q.time := fun h => by
        rcases hp.called v r t' h with h | ⟨c, k1, k2⟩ | ⟨q, q1, q2, q3⟩
        · exact Or.inl h
        · exact Or.inr (Or.inl ⟨c, List.mem_append_left _ k1, k2⟩)
        · exact Or.inr (Or.inr (old v q r q1 q2 q3))
      by_cases hv : v = p.dest
      · subst hv
        simp only [Function.update_self] at hm
        simp only [TxA.step, Option.some.injEq] at hx
        rw [← hx] at hm
        rcases List.mem_cons.1 hm with hm | hm
        · cases hm
          exact Or.inr (Or.inl ⟨_, List.mem_append_right _ (List.mem_singleton.2 rfl), rfl, rfl, ((handed_iff p t ts).1 ht).1⟩)
        · exact old' hm
      · dsimp only at hm
        rw [Function.update_of_ne hv] at hm
        exact old' hm
    · rcases List.mem_append.1 hcm with hcm | hcm
      · exact (hp.busy c hcm).imp_right fun ⟨e, he⟩ => ⟨e, hlog _ _ he⟩
      · rw [List.mem_singleton] at hcm
        subst hcm
        exact Or.inl ⟨p, List.mem_of_getElem? hi, rfl, rfl⟩
  | finish i p c e hi hc he =>
    obtain ⟨k1, k2, k3⟩ := callOf_mem hc
    have he := result_mem he
    rw [← k2] at he
    refine peace_judge hb hp hi (fun c' m1 m2 m3 => ?_) fun t ht _ _ => ?_
    · have hcc : c' = c := List.inj_on_of_nodup_map hp.once m1 k1 (by rw [m2, m3, k2, k3])
      rw [hcc]
      exact ⟨e, he⟩
    · exact returned_verdict hd hb hp k1 (by rw [k3]; exact ht) he
  | skip i p hi hc ht =>
    refine peace_judge hb hp hi (fun c' m1 m2 m3 => absurd m3 (callOf_none hc c' m1 m2)) fun t hdec hid hne => ?_
    rw [(handed_iff (n := n) p t []).2 ⟨hdec, hne, hid, rfl⟩] at ht
    cases ht
  | node v l x hv hl hx =>
    refine ⟨h1, h2, h3, hp.once, fun w r t hm => ?_, fun c hcm => (hp.busy c hcm).imp_right fun ⟨e, he⟩ => ⟨e, hlog _ _ he⟩, h5, hp.fine, hp.pubs,
      hp.reps⟩
    have hno : isCall (here n w s (.node v l)) = false := by
      simp only [here]
      split
      · exact hl
      · rfl
    rcases hp.called w r t (h4 w hno r t hm) with h | h | ⟨q, q1, q2, q3⟩
    · exact Or.inl h
    · exact Or.inr (Or.inl h)
    · exact Or.inr (Or.inr (old w q r q1 q2 q3))

end TxFlood

/-- C150, what holds: if all chains judge transactions alike, by their ids, nodes publish what is good, no validation gives up waiting, no two
contents carry transactions with the same id, and messages with transactions that the chains refuse are not forgotten before the transaction cache forgets
their ids, then no node that runs this code is reported over a transaction. -/
theorem C150_no_accusation_partial {n : Net} {dur : Int} (hd : 0 ≤ dur) {clock : Bytes → Int} {ls : List Label} {s : State}
    (hr : run n (init dur clock) ls = some s) (verdict : Tx → Option Err) (hids : ∀ t t', tid t = tid t' → verdict t = verdict t')
    (hcan : ∀ d d' t t', n.decode d = .ok t → n.decode d' = .ok t' → tid t = tid t' → d = d')
    (ha : Along n (Agreed n dur verdict) (init dur clock) ls) {v p : Bytes} {e : Err} (hm : Obs.reported v p e ∈ s.log) : n.honest p = false := by
  have hinv := run_keeps (P := fun s => Base n dur s ∧ Peace n dur verdict s) (K := Agreed n dur verdict)
    (fun s s' l h ha hst => ⟨base_step s s' l h.1 hst, peace_step hd hids hcan s s' l h.1 h.2 ha hst⟩) ls _ _
    ⟨base_init clock, ⟨fun _ _ _ _ h => (by cases h), fun _ _ h => (by cases h), fun _ _ _ h => (by cases h), List.nodup_nil,
      fun _ _ _ h => (by cases h), fun _ h => (by cases h), fun _ a q c h => (by cases a <;> cases h),
      fun _ h => (by rcases h with h | h <;> cases h), fun _ _ h => (by cases h), fun _ _ _ h => (by cases h)⟩⟩ ha hr
  exact hinv.2.reps _ _ _ hm

namespace TxFlood

theorem along_of {n : Net} {P : State → Label → Prop} (ls : List Label) : ∀ s : State,
    (∀ i l, ls[i]? = some l → ∀ s', run n s (ls.take i) = some s' → P s' l) → Along n P s ls := by
  induction ls with
  | nil => intro s _; trivial
  | cons l ls ih =>
    intro s h
    refine ⟨h 0 l rfl s rfl, fun s' hs => ih s' fun i l' hl s'' hr => h (i + 1) l' hl s'' ?_⟩
    simp only [List.take_succ_cons, run, hs]
    exact hr

/-- Checks `Agreed` for runs in which nothing is published but the good transaction, and no blocks are announced. -/
def okAgreed (n : Net) (dur : Int) (verdict : Tx → Option Err) (s : State) : Label → Bool
  | .publish _ t => decide (t = tGood ∧ verdict tGood = none ∧ n.encode tGood = [1])
  | .node v (.rpcReturn i e) => match (s.node v).jobs[i]? with
    | some j => decide (e = verdict j.tx)
    | none => true
  | .node _ (.broadcast _) => false
  | .node _ (.callerGivesUp _ _) => false
  | .forget v _ => (s.node v).passes.all fun p => decide (dur < (s.node v).now - p.time)
  | _ => true

theorem agreed_of {n : Net} {dur : Int} (hn : n.decode [1] = .ok tGood) {verdict : Tx → Option Err} {ls : List Label} {s : State}
    (h : ((List.range ls.length).all fun i => match ls[i]? with
      | some l => okAgreed n dur verdict ((run n s (ls.take i)).getD s) l
      | none => true) = true) : Along n (Agreed n dur verdict) s ls := by
  refine along_of ls s fun i l hl s' hr => ?_
  have hi : i < ls.length := by
    by_contra hh
    rw [List.getElem?_eq_none (by omega)] at hl
    cases hl
  have := List.all_eq_true.1 h i (List.mem_range.2 hi)
  simp only [hl, hr, Option.getD_some] at this
  cases l with
  | publish v t =>
    simp only [okAgreed, decide_eq_true_eq] at this
    obtain ⟨rfl, h2, h3⟩ := this
    exact ⟨h2, by rw [h3]; exact hn, by decide⟩
  | node v l =>
    cases l with
    | rpcReturn i e =>
      intro j hj
      simp only [okAgreed, hj, decide_eq_true_eq] at this
      exact this
    | broadcast txs => cases this
    | callerGivesUp r e => cases this
    | _ => trivial
  | forget v id =>
    simp only [okAgreed, List.all_eq_true, decide_eq_true_eq] at this
    exact fun _ _ _ _ => Or.inr fun p hp _ => this p hp
  | _ => trivial

/-- Nobody accepts anything. -/
def tRefuse (_ : Tx) : Option Err := some (.other 1)

end TxFlood

namespace TxFlood

/-- The three nodes again; `[1]` and `[3]` encode the transaction, and there is no other. -/
def tPlain : Net := { tNet with decode := fun d => if d = [1] ∨ d = [3] then .ok tGood else .error (.other 0) }

/-- The three nodes again; `[1]` encodes the transaction, `[4]` another one with an id of its own. -/
def tOther : Tx := { id := some [8] }
def tOne : Net := { tNet with decode := fun d => if d = [1] then .ok tGood else if d = [4] then .ok tOther else .error (.other 0) }

theorem tOne_can (d d' : Bytes) (t t' : Tx) (h : tOne.decode d = .ok t) (h' : tOne.decode d' = .ok t') (hi : tid t = tid t') : d = d' := by
  simp only [tOne] at h h'
  split at h
  · rename_i e
    cases h
    split at h'
    · rename_i e'; rw [e, e']
    · split at h'
      · cases h'; exact absurd hi (by decide)
      · cases h'
  · split at h
    · rename_i e
      cases h
      split at h'
      · cases h'; exact absurd hi (by decide)
      · split at h'
        · rename_i e'; rw [e, e']
        · cases h'
    · cases h

/-- The chains accept the transaction with id `[7]` only. -/
def tSeven (t : Tx) : Option Err := if tid t = [7] then none else some (.other 1)

/-- Somebody sends B a transaction that the chains refuse; A publishes one that they accept. Later, when B has forgotten the first, it gets it again. -/
def tBoth : List Label :=
  [.inject (tFrom tB [4]), .arrive 0] ++ tAsk tB 0 (some (.other 1)) ++ [.publish tA tGood, .arrive 0] ++ tAsk tB 1 none ++ [.arrive 0] ++
  tAsk tC 0 none ++ [.node tB (.tick 11), .forget tB (msgID tOne [4]), .inject (tFrom tB [4]), .arrive 0] ++ tAsk tB 2 (some (.other 1))

/-- The chain of B refuses a transaction; thirty seconds later B has forgotten the message, and is sent it again. -/
def tAgain : List Label :=
  [.inject (tFrom tB [4]), .arrive 0] ++ tAsk tB 0 (some (.other 1)) ++
  [.node tB (.tick 30), .forget tB (msgID tOne [4]), .inject (tFrom tB [4]), .arrive 0, .submit 0, .node tB (.work 0), .node tB (.callerReturns 1),
    .finish 0, .arrive 1] ++ tAsk tC 0 (some (.other 1))

def tEnd : State := (run tOne (init 300 fun _ => 0) tAgain).getD tStart

theorem tEnd_run : run tOne (init 300 fun _ => 0) tAgain = some tEnd := by
  have : (run tOne (init 300 fun _ => 0) tAgain).isSome = true := by decide +kernel
  obtain ⟨s, hs⟩ := Option.isSome_iff_exists.1 this
  rw [tEnd, hs]; rfl

/-- A publishes the transaction, B passes it on, and the validation of C gives up waiting for the applicator. -/
def tLate : List Label :=
  [.publish tA tGood, .arrive 0] ++ tAsk tB 0 none ++ [.arrive 0, .submit 0, .node tC (.work 0), .node tC (.submit 0),
    .node tC (.callerGivesUp 0 (.other 2)), .finish 0, .node tC (.rpcReturn 0 none)]

theorem run_getD {n : Net} {ls : List Label} (h : (run n tStart ls).isSome = true) : run n tStart ls = some ((run n tStart ls).getD tStart) := by
  obtain ⟨s, hs⟩ := Option.isSome_iff_exists.1 h
  rw [hs]; rfl

end TxFlood

/-- The hypotheses of C150 hold in this run, in which somebody is reported, and a transaction is passed on. -/
example : ∃ s, run tOne (init 10 fun _ => 0) tBoth = some s ∧ (∀ t t', tid t = tid t' → tSeven t = tSeven t') ∧
    (∀ d d' t t', tOne.decode d = .ok t → tOne.decode d' = .ok t' → tid t = tid t' → d = d') ∧
    Along tOne (Agreed tOne 10 tSeven) (init 10 fun _ => 0) tBoth ∧ (∃ e, Obs.reported tB tE e ∈ s.log) ∧ Obs.sent tB tC [1] ∈ s.log :=
  ⟨_, run_getD (by decide +kernel), fun t t' h => (by simp only [tSeven, h]), tOne_can, agreed_of rfl (by decide +kernel),
    ⟨wrapS .transactionApplication (.other 1), by decide +kernel⟩, by decide +kernel⟩

/-- C150 is false as stated: a transaction that all chains refuse is sent to B twice, in two encodings; B passes it on, and C reports B. (No two
transactions have the same id.) -/
theorem C150_resent_refuted : ∃ (n : Net) (ls : List Label) (s : State) (verdict : Tx → Option Err) (v p : Bytes) (e : Err),
    run n (init 10 fun _ => 0) ls = some s ∧ (∀ t t', tid t = tid t' → verdict t = verdict t') ∧
    (∀ d d' t t', n.decode d = .ok t → n.decode d' = .ok t' → tid t = tid t' → t = t') ∧
    Along n (Agreed n 10 verdict) (init 10 fun _ => 0) ls ∧ Obs.reported v p e ∈ s.log ∧ n.honest v = true ∧ n.honest p = true := by
  refine ⟨tPlain, tResent, _, tRefuse, tC, tB, wrapS .transactionApplication (.other 1), run_getD (by decide +kernel), fun _ _ _ => rfl,
    fun d d' t t' h h' _ => ?_, agreed_of rfl (by decide +kernel), by decide +kernel, by decide, by decide⟩
  simp only [tPlain] at h h'
  split at h
  · cases h
    split at h'
    · cases h'; rfl
    · cases h'
  · cases h

/-- The messages of pubsub are forgotten after thirty seconds, the ids of transactions after five minutes: C149 is false even if no two contents carry
transactions with the same id. A node passes on a transaction that its chain has refused and never accepted, if it is sent the same message again. -/
theorem C149_forgotten_refuted : ∃ (n : Net) (ls : List Label) (s : State) (u w data : Bytes) (t : Tx),
    run n (init 300 fun _ => 0) ls = some s ∧
    (∀ d d' t t', n.decode d = .ok t → n.decode d' = .ok t' → tid t = tid t' → d = d') ∧ n.honest u = true ∧ Obs.sent u w data ∈ s.log ∧
    n.decode data = .ok t ∧ (∃ r e, TxA.Obs.verdict r t (some e) ∈ (s.node u).log) ∧ (∀ r, TxA.Obs.verdict r t none ∉ (s.node u).log) ∧
    (∀ v t, Obs.published v t ∉ s.log) ∧ (∀ p ∈ (s.node u).passes, p.req ≠ none) ∧
    Along n (fun s l => ∀ v id, l = .forget v id → ∀ p ∈ (s.node v).passes, 30 ≤ (s.node v).now - p.time) (init 300 fun _ => 0) ls := by
  refine ⟨tOne, tAgain, tEnd, tB, tC, [4], tOther, tEnd_run, tOne_can, by decide, by decide +kernel, by decide +kernel,
    ⟨0, .other 1, by decide +kernel⟩, fun r h => ?_, fun v t h => ?_, fun p hp => ?_, along_of _ _ fun i l hl s' hr v id he => ?_⟩
  · have : (tEnd.node tB).log.all (fun | .verdict _ _ none => false | _ => true) = true := by decide +kernel
    have := List.all_eq_true.1 this _ h
    cases this
  · have : tEnd.log.all (fun | .published _ _ => false | _ => true) = true := by decide +kernel
    have := List.all_eq_true.1 this _ h
    cases this
  · have : (tEnd.node tB).passes.all (fun p => p.req.isSome) = true := by decide +kernel
    have := List.all_eq_true.1 this _ hp
    intro h
    rw [h] at this
    cases this
  · have hi : i < tAgain.length := by
      by_contra hh
      rw [List.getElem?_eq_none (by omega)] at hl
      cases hl
    have hall : ((List.range tAgain.length).all fun i => match tAgain[i]? with
      | some (.forget v _) => (((run tOne (init 300 fun _ => 0) (tAgain.take i)).getD tStart).node v).passes.all fun p =>
          decide (30 ≤ (((run tOne (init 300 fun _ => 0) (tAgain.take i)).getD tStart).node v).now - p.time)
      | _ => true) = true := by decide +kernel
    have := List.all_eq_true.1 hall i (List.mem_range.2 hi)
    subst he
    simp only [hl, hr, Option.getD_some, List.all_eq_true, decide_eq_true_eq] at this
    exact this

/-- C150 is false even if no two contents carry transactions with the same id, all chains agree, and nobody gives up: B passes on the transaction that
all chains refuse, when it is sent the message a second time, and C reports B. -/
theorem C150_forgotten_refuted : ∃ (n : Net) (ls : List Label) (s : State) (verdict : Tx → Option Err) (v p : Bytes) (e : Err),
    run n (init 300 fun _ => 0) ls = some s ∧ (∀ t t', tid t = tid t' → verdict t = verdict t') ∧
    (∀ d d' t t', n.decode d = .ok t → n.decode d' = .ok t' → tid t = tid t' → d = d') ∧
    Along n (fun s l => Agreed n 300 verdict s l ∨ ∃ v id, l = .forget v id ∧ ∀ p ∈ (s.node v).passes, 30 ≤ (s.node v).now - p.time)
      (init 300 fun _ => 0) ls ∧ Obs.reported v p e ∈ s.log ∧ n.honest v = true ∧ n.honest p = true := by
  refine ⟨tOne, tAgain, tEnd, tRefuse, tC, tB, wrapS .transactionApplication (.other 1), tEnd_run, fun _ _ _ => rfl, tOne_can,
    along_of _ _ fun i l hl s' hr => ?_, by decide +kernel, by decide, by decide⟩
  have hi : i < tAgain.length := by
    by_contra hh
    rw [List.getElem?_eq_none (by omega)] at hl
    cases hl
  have hall : ((List.range tAgain.length).all fun i => match tAgain[i]? with
    | some (.forget v _) => (((run tOne (init 300 fun _ => 0) (tAgain.take i)).getD tStart).node v).passes.all fun p =>
        decide (30 ≤ (((run tOne (init 300 fun _ => 0) (tAgain.take i)).getD tStart).node v).now - p.time)
    | some l => okAgreed tOne 300 tRefuse ((run tOne (init 300 fun _ => 0) (tAgain.take i)).getD tStart) l
    | none => true) = true := by decide +kernel
  have h := List.all_eq_true.1 hall i (List.mem_range.2 hi)
  cases l with
  | forget v id =>
    right
    simp only [hl, hr, Option.getD_some, List.all_eq_true, decide_eq_true_eq] at h
    exact ⟨v, id, rfl, h⟩
  | publish v t =>
    left
    simp only [hl, hr, Option.getD_some, okAgreed, decide_eq_true_eq] at h
    cases h.2.1
  | node v l =>
    left
    simp only [hl, hr, Option.getD_some] at h
    cases l with
    | rpcReturn i e =>
      intro j hj
      simp only [okAgreed, hj, decide_eq_true_eq] at h
      exact h
    | broadcast txs => cases h
    | callerGivesUp r e => cases h
    | _ => trivial
  | _ => exact Or.inl trivial

/-- C150 is false if validations may give up waiting: a node is reported over a transaction that all chains accept. -/
theorem C150_gave_up_refuted : ∃ (n : Net) (ls : List Label) (s : State) (verdict : Tx → Option Err) (v p : Bytes) (e : Err),
    run n (init 10 fun _ => 0) ls = some s ∧ (∀ t t', tid t = tid t' → verdict t = verdict t') ∧
    (∀ d d' t t', n.decode d = .ok t → n.decode d' = .ok t' → tid t = tid t' → d = d') ∧
    Along n (fun s l => Agreed n 10 verdict s l ∨ ∃ v r e, l = .node v (.callerGivesUp r e)) (init 10 fun _ => 0) ls ∧
    (∀ u w data, Obs.sent u w data ∈ s.log → ∃ t, n.decode data = .ok t ∧ verdict t = none) ∧
    Obs.reported v p e ∈ s.log ∧ n.honest v = true ∧ n.honest p = true := by
  refine ⟨tOne, tLate, _, tSeven, tC, tB, wrapS .transactionApplication (.other 2), run_getD (by decide +kernel),
    fun t t' h => (by simp only [tSeven, h]), tOne_can, along_of _ _ fun i l hl s' hr => ?_, fun u w data h => ?_, by decide +kernel, by decide, by decide⟩
  · have hi : i < tLate.length := by
      by_contra hh
      rw [List.getElem?_eq_none (by omega)] at hl
      cases hl
    have hall : ((List.range tLate.length).all fun i => match tLate[i]? with
      | some l => (match l with | .node _ (.callerGivesUp _ _) => true | _ => false) ||
          okAgreed tOne 10 tSeven ((run tOne tStart (tLate.take i)).getD tStart) l
      | none => true) = true := by decide +kernel
    have := List.all_eq_true.1 hall i (List.mem_range.2 hi)
    change run tOne tStart _ = _ at hr
    simp only [hl, hr, Option.getD_some, Bool.or_eq_true] at this
    rcases this with h | h
    · split at h
      · exact Or.inr ⟨_, _, _, rfl⟩
      · cases h
    · left
      cases l with
      | publish v t =>
        simp only [okAgreed, decide_eq_true_eq] at h
        obtain ⟨rfl, h2, h3⟩ := h
        exact ⟨h2, by rw [h3]; rfl, by decide⟩
      | node v l =>
        cases l with
        | rpcReturn i e =>
          intro j hj
          simp only [okAgreed, hj, decide_eq_true_eq] at h
          exact h
        | broadcast txs => cases h
        | callerGivesUp r e => cases h
        | _ => trivial
      | forget v id =>
        simp only [okAgreed, List.all_eq_true, decide_eq_true_eq] at h
        exact fun _ _ _ _ => Or.inr fun p hp _ => h p hp
      | _ => trivial
  · have : ((run tOne tStart tLate).getD tStart).log.all (fun | .sent _ _ d => decide (d = [1]) | _ => true) = true := by decide +kernel
    have := of_decide_eq_true (List.all_eq_true.1 this _ h)
    subst this
    exact ⟨tGood, rfl, by decide⟩

end KP2P

import Verif.Proof.Flood
/-!
# C139, C140 and C141: how blocks spread in a network
-/

namespace KP2P
open KP2P.Flood KP2P.Spec.Flood
open KP2P.GossipValidate (Msg validateBlock)

variable {n : Net}

/-! ## C139 -/

/-- C139. A block that one node publishes reaches all nodes that it is connected to by way of nodes that run this code, and these hand it
to their applicators (or have published it themselves), if it is complete and welcome everywhere; whatever other nodes send, and in whatever
order messages arrive and validations end. -/
theorem C139_reaches (σ : Nat → State) (ev : Nat → Label) (hx : Exec n σ ev) (hf : FairDelivery σ ev) (b : RawBlock)
    (hj : FairJudging (n.encode b) σ ev) (h : Header) (hb : b.id ≠ none) (hh : b.header = some h) (hp : h.previous ≠ none)
    (hdec : n.decode (n.encode b) = .ok b) (hinj : ∀ c, n.encode c = n.encode b → c = b)
    (hcol : ∀ x, n.sha x = n.sha (n.encode b) → x = n.encode b) (hw : ∀ k, Welcome n h (n.encode b) (σ k) (ev k)) (k : Nat) (v w : Bytes)
    (hv : Obs.published v b ∈ (σ k).log) (hpath : Path n v w) : ∃ j, k ≤ j ∧ Has w b (σ j) :=
  reaches σ ev (loose_of hx) hf b h hb hh hp hdec hinj hcol hw v (fun p k _ h => hj p k h) k w hv hpath

/-! ## C142 -/

/-- C142. A chain of blocks, each published by some node, gets to all nodes that all publishers are connected to, although each node accepts a
block only after its parent: validations of a block may take as long as its parent is not on the chain of the node. -/
theorem C142_chain (σ : Nat → State) (ev : Nat → Label) (hx : Exec n σ ev) (hf : FairDelivery σ ev) (c : Nat → RawBlock) (len : Nat)
    (hd : Nat → Header) (hb : ∀ i, i ≤ len → (c i).id ≠ none ∧ (c i).header = some (hd i) ∧ (hd i).previous ≠ none)
    (hdec : ∀ i, i ≤ len → n.decode (n.encode (c i)) = .ok (c i)) (hinj : ∀ i, i ≤ len → ∀ a, n.encode a = n.encode (c i) → a = c i)
    (hcol : ∀ i, i ≤ len → ∀ x, n.sha x = n.sha (n.encode (c i)) → x = n.encode (c i))
    (hw : ∀ i, i ≤ len → ∀ k, Welcome n (hd i) (n.encode (c i)) (σ k) (ev k)) (hfirst : FairJudging (n.encode (c 0)) σ ev)
    (hnext : ∀ i, i < len → FairAfter (c i) (n.encode (c (i + 1))) σ ev) (v : Nat → Bytes)
    (hpath : ∀ i, i < len → ∀ x, Path n (v (i + 1)) x → Path n (v i) x) (k : Nat)
    (hv : ∀ i, i ≤ len → Obs.published (v i) (c i) ∈ (σ k).log) (i : Nat) (hi : i ≤ len) (w : Bytes) (hp : Path n (v i) w) :
    ∃ j, k ≤ j ∧ Has w (c i) (σ j) := by
  induction i generalizing w with
  | zero =>
    obtain ⟨h1, h2, h3⟩ := hb 0 hi
    exact reaches σ ev (loose_of hx) hf (c 0) (hd 0) h1 h2 h3 (hdec 0 hi) (hinj 0 hi) (hcol 0 hi) (hw 0 hi) (v 0) (fun p k _ h => hfirst p k h) k w (hv 0 hi) hp
  | succ i ih =>
    obtain ⟨h1, h2, h3⟩ := hb (i + 1) hi
    refine reaches σ ev (loose_of hx) hf (c (i + 1)) (hd (i + 1)) h1 h2 h3 (hdec _ hi) (hinj _ hi) (hcol _ hi) (hw _ hi) (v (i + 1)) ?_ k w (hv _ hi) hp
    intro p k' hpp hpm hstay
    obtain ⟨j, hj, hhas⟩ := ih (by omega) p.dest (hpath i (by omega) _ hpp)
    have hhas' : Has p.dest (c i) (σ (max j k')) :=
      hhas.imp (mono_of State.log (fun s s' l h x hx => log_step s s' l h x hx) σ ev (loose_of hx) _ _ _ (Nat.le_max_left _ _))
        (mono_of State.log (fun s s' l h x hx => log_step s s' l h x hx) σ ev (loose_of hx) _ _ _ (Nat.le_max_left _ _))
    obtain ⟨e, he, ha⟩ := hnext i (by omega) p (max j k') hpm hhas' fun e he => hstay e (Nat.le_trans (Nat.le_max_right _ _) he)
    exact ⟨e, Nat.le_trans (Nat.le_max_right _ _) he, ha⟩

/-! ## C140 -/

private theorem run_ind' (P : State → Prop) (ls : List Label) (hstep : ∀ s s' l, l ∈ ls → P s → step n s l = some s' → P s') :
    ∀ s s', P s → run n s ls = some s' → P s' := by
  induction ls with
  | nil => intro s s' h hr; cases hr; exact h
  | cons l ls ih =>
    intro s s' h hr
    simp only [run] at hr
    split at hr
    · rename_i s1 h1
      exact ih (fun s s' l hl => hstep s s' l (List.mem_cons_of_mem _ hl)) s1 s' (hstep _ _ _ (List.mem_cons_self ..) h h1) hr
    · cases hr

private theorem run_ind (P : State → Prop) (hstep : ∀ s s' l, P s → step n s l = some s' → P s') (ls : List Label) :
    ∀ s s', P s → run n s ls = some s' → P s' := run_ind' P ls fun s s' l _ => hstep s s' l

private theorem sendings_append (u w data : Bytes) (a b : List Flood.Obs) : sendings u w data (a ++ b) = sendings u w data a + sendings u w data b := by
  simp [sendings, List.countP_append]

private theorem sendings_map (u w data v x : Bytes) (ws : List Bytes) :
    sendings u w data (ws.map (Obs.sent v · x)) = if v = u ∧ x = data then ws.count w else 0 := by
  simp only [sendings, List.countP_map]
  split
  · rename_i h
    obtain ⟨rfl, rfl⟩ := h
    rw [List.count]
    apply List.countP_congr
    intro a _
    simp
  · rename_i h
    rw [List.countP_eq_zero]
    intro a _
    simp only [Function.comp, decide_eq_true_eq]
    exact fun hh => h ⟨hh.1, hh.2.2⟩

private theorem sendings_none (u w data : Bytes) (l : List Flood.Obs) (h : ∀ x ∈ l, ∀ a b c, x ≠ Obs.sent a b c) : sendings u w data l = 0 := by
  rw [sendings, List.countP_eq_zero]
  intro x hx
  cases x with
  | sent a b c => exact absurd rfl (h _ hx a b c)
  | _ => simp

private theorem sendings_judge (u w data : Bytes) (p : Packet) (r : GossipValidate.Result RawBlock) (ws : List Bytes) (answer : Option Err)
    (log : List Flood.Obs) : sendings u w data (ws.map (Obs.sent p.dest · p.msg.data) ++ (r.report.toList.map fun x => Obs.reported p.dest x.1 x.2) ++
      Obs.judged p.dest p.msg.data r.accept :: (r.applied.map (Obs.applied p.dest · answer) ++ log)) =
    (if p.dest = u ∧ p.msg.data = data then ws.count w else 0) + sendings u w data log := by
  have e1 : sendings u w data (r.report.toList.map fun x => Obs.reported p.dest x.1 x.2) = 0 := by
    apply sendings_none
    intro x hx a b c
    obtain ⟨y, _, rfl⟩ := List.mem_map.1 hx
    exact fun h => (by cases h)
  have e2 : sendings u w data (Obs.judged p.dest p.msg.data r.accept :: r.applied.map (Obs.applied p.dest · answer)) = 0 := by
    apply sendings_none
    intro x hx a b c
    rcases List.mem_cons.1 hx with rfl | hx
    · exact fun h => (by cases h)
    obtain ⟨y, _, rfl⟩ := List.mem_map.1 hx
    exact fun h => (by cases h)
  rw [← List.cons_append, sendings_append, sendings_append, sendings_append, sendings_map, e1, e2]
  omega

/-- What a node has sent, is validating and has refused. -/
private structure Once (n : Net) (v w data : Bytes) (s : State) : Prop where
  sent : sendings v w data s.log ≤ 1
  judging : s.judging.countP (For data v) ≤ 1
  either : s.judging.countP (For data v) ≠ 0 → sendings v w data s.log = 0 ∧ Obs.judged v data false ∉ s.log
  refused : Obs.judged v data false ∈ s.log → sendings v w data s.log = 0
  seen : s.judging.countP (For data v) ≠ 0 ∨ sendings v w data s.log ≠ 0 ∨ Obs.judged v data false ∈ s.log → (v, msgID n data) ∈ s.seen

private theorem once_step (v : Bytes) (hv : n.honest v = true) (hnd : (n.adj v).Nodup) (w data : Bytes) (s s' : State) (l : Label)
    (hl : l ≠ .forget v (msgID n data)) (ho : Once n v w data s) (hst : step n s l = some s') : Once n v w data s' := by
  have cnt : ∀ ws : List Bytes, ws.Nodup → ws.count w ≤ 1 := fun ws hws => List.nodup_iff_count_le_one.1 hws w
  cases ftr_of_step s s' l hst with
  | again v' b hv' hs =>
    have e : sendings v w data (Obs.published v' b :: s.log) = sendings v w data s.log := by simp [sendings]
    exact ⟨by rw [e]; exact ho.sent, ho.judging, fun h => ⟨by rw [e]; exact (ho.either h).1, by simpa using (ho.either h).2⟩,
      fun h => by rw [e]; exact ho.refused (by simpa using h), fun h => ho.seen (by rw [e] at h; simpa using h)⟩
  | publish v' b m hm hv' hs =>
    have e : sendings v w data (Obs.published v' b :: s.log) = sendings v w data s.log := by simp [sendings]
    have e' := sendings_append v w data ((n.adj v').map (Obs.sent v' · (n.encode b))) (Obs.published v' b :: s.log)
    rw [e, sendings_map] at e'
    have ej : Obs.judged v data false ∈ (n.adj v').map (Obs.sent v' · (n.encode b)) ++ Obs.published v' b :: s.log ↔ Obs.judged v data false ∈ s.log := by
      simp
    by_cases hc : v' = v ∧ n.encode b = data
    · rw [if_pos hc] at e'
      obtain ⟨rfl, hc⟩ := hc
      rw [hc] at hs
      have h0 : ¬ (s.judging.countP (For data v') ≠ 0 ∨ sendings v' w data s.log ≠ 0 ∨ Obs.judged v' data false ∈ s.log) := fun h => hs (ho.seen h)
      simp only [not_or, not_not] at h0
      have := cnt _ hnd
      refine ⟨?_, ho.judging, fun h => absurd h0.1 h, fun h => absurd (ej.1 h) h0.2.2, fun _ => by rw [← hc]; exact List.mem_cons_self ..⟩
      show sendings v' w data (_ ++ _) ≤ 1
      omega
    · rw [if_neg hc, Nat.zero_add] at e'
      refine ⟨?_, ho.judging, fun h => ⟨?_, fun hh => (ho.either h).2 (ej.1 hh)⟩, fun h => ?_, fun h => List.mem_cons_of_mem _ (ho.seen ?_)⟩
      · show sendings v w data (_ ++ _) ≤ 1
        rw [e']; exact ho.sent
      · show sendings v w data (_ ++ _) = 0
        rw [e']; exact (ho.either h).1
      · show sendings v w data (_ ++ _) = 0
        rw [e']; exact ho.refused (ej.1 h)
      · rcases h with h | h | h
        · exact Or.inl h
        · exact Or.inr (Or.inl (by rw [← e']; exact h))
        · exact Or.inr (Or.inr (ej.1 h))
  | lost => exact ⟨ho.sent, ho.judging, ho.either, ho.refused, ho.seen⟩
  | full => exact ⟨ho.sent, ho.judging, ho.either, ho.refused, fun h => List.mem_cons_of_mem _ (ho.seen h)⟩
  | arrive i p hi hd _ hs =>
    have ec : (s.judging ++ [p]).countP (For data v) = s.judging.countP (For data v) + if For data v p then 1 else 0 := by
      simp [List.countP_append, List.countP_singleton]
    by_cases hf : For data v p = true
    · obtain ⟨h1, h2⟩ := for_iff.1 hf
      rw [h1, h2] at hs
      have h0 : ¬ (s.judging.countP (For data v) ≠ 0 ∨ sendings v w data s.log ≠ 0 ∨ Obs.judged v data false ∈ s.log) := fun h => hs (ho.seen h)
      simp only [not_or, not_not] at h0
      rw [if_pos hf, h0.1] at ec
      exact ⟨ho.sent, Nat.le_of_eq ec, fun _ => h0.2, ho.refused, fun _ => by rw [h1, h2]; exact List.mem_cons_self ..⟩
    · rw [if_neg hf, Nat.add_zero] at ec
      refine ⟨ho.sent, ?_, ?_, ho.refused, ?_⟩
      · show (s.judging ++ [p]).countP _ ≤ 1
        rw [ec]; exact ho.judging
      · intro h
        exact ho.either (by rw [← ec]; exact h)
      · intro h
        exact List.mem_cons_of_mem _ (ho.seen (h.imp_left fun h => by rw [← ec]; exact h))
  | judge i lib answer p r ws hi hr hw =>
    have ec := count_erase (For data v) hi
    have es := sendings_judge v w data p r ws answer s.log
    have ej : Obs.judged v data false ∈ ws.map (Obs.sent p.dest · p.msg.data) ++ (r.report.toList.map fun x => Obs.reported p.dest x.1 x.2) ++
        Obs.judged p.dest p.msg.data r.accept :: (r.applied.map (Obs.applied p.dest · answer) ++ s.log) ↔
        (p.dest = v ∧ p.msg.data = data ∧ r.accept = false) ∨ Obs.judged v data false ∈ s.log := by
      simp only [List.mem_append, List.mem_cons, List.mem_map]
      constructor
      · rintro ((⟨_, _, h⟩ | ⟨_, _, h⟩) | h | ⟨_, _, h⟩ | h)
        · cases h
        · cases h
        · left
          simp only [Obs.judged.injEq] at h
          exact ⟨h.1.symm, h.2.1.symm, h.2.2.symm⟩
        · cases h
        · exact Or.inr h
      · rintro (⟨rfl, rfl, h⟩ | h)
        · exact Or.inr (Or.inl (by rw [h]))
        · exact Or.inr (Or.inr (Or.inr h))
    by_cases hf : For data v p = true
    · obtain ⟨h1, h2⟩ := for_iff.1 hf
      rw [if_pos hf] at ec
      rw [if_pos ⟨h1, h2⟩] at es
      have hne : s.judging.countP (For data v) ≠ 0 := by omega
      have hj1 := ho.judging
      obtain ⟨g1, g2⟩ := ho.either hne
      have hc0 : (s.judging.eraseIdx i).countP (For data v) = 0 := by omega
      have hwc : ws.count w ≤ 1 := by
        apply cnt
        rw [hw, h1]
        split
        · exact hnd.filter _
        · exact List.nodup_nil
      refine ⟨?_, (Nat.le_of_eq hc0).trans (Nat.zero_le _), fun h => absurd hc0 h, fun h => ?_, fun _ => ho.seen (Or.inl hne)⟩
      · show sendings v w data (_ ++ _) ≤ 1
        omega
      · have h : r.accept = false := by
          rcases ej.1 h with h | h
          · exact h.2.2
          · exact absurd h g2
        rw [h] at hw
        have hw : ws = [] := by simpa using hw
        show sendings v w data (_ ++ _) = 0
        rw [es, g1, hw]; rfl
    · rw [if_neg hf, Nat.add_zero] at ec
      have hnf : ¬ (p.dest = v ∧ p.msg.data = data) := fun h => hf (for_iff.2 h)
      rw [if_neg hnf, Nat.zero_add] at es
      have ej' := ej.trans (or_iff_right fun h => hnf ⟨h.1, h.2.1⟩)
      refine ⟨?_, ?_, fun h => ?_, fun h => ?_, fun h => ho.seen ?_⟩
      · show sendings v w data (_ ++ _) ≤ 1
        rw [es]; exact ho.sent
      · show (s.judging.eraseIdx i).countP _ ≤ 1
        rw [← ec]; exact ho.judging
      · have := ho.either (by rw [ec]; exact h)
        refine ⟨?_, fun hh => this.2 (ej'.1 hh)⟩
        show sendings v w data (_ ++ _) = 0
        rw [es]; exact this.1
      · show sendings v w data (_ ++ _) = 0
        rw [es]; exact ho.refused (ej'.1 h)
      · rcases h with h | h | h
        · exact Or.inl (by rw [ec]; exact h)
        · exact Or.inr (Or.inl (by rw [← es]; exact h))
        · exact Or.inr (Or.inr (ej'.1 h))
  | forget v' id =>
    refine ⟨ho.sent, ho.judging, ho.either, ho.refused, fun h => List.mem_filter.2 ⟨ho.seen h, ?_⟩⟩
    simp only [ne_eq, Prod.mk.injEq, decide_eq_true_eq]
    rintro ⟨rfl, rfl⟩
    exact hl rfl
  | inject p g1 g2 g3 =>
    have e : sendings v w data (Obs.sent p.source p.dest p.msg.data :: s.log) = sendings v w data s.log := by
      have : p.source ≠ v := fun h => by rw [h, hv] at g1; cases g1
      simp [sendings, this]
    exact ⟨by rw [e]; exact ho.sent, ho.judging, fun h => ⟨by rw [e]; exact (ho.either h).1, by simpa using (ho.either h).2⟩,
      fun h => by rw [e]; exact ho.refused (by simpa using h), fun h => ho.seen (by rw [e] at h; simpa using h)⟩

private theorem once_run (ls : List Label) (s : State) (hr : run n init ls = some s) (v : Bytes) (hv : n.honest v = true)
    (hnd : (n.adj v).Nodup) (w data : Bytes) (hl : Label.forget v (msgID n data) ∉ ls) : Once n v w data s :=
  run_ind' (Once n v w data) ls (fun s s' l hm h hst => once_step v hv hnd w data s s' l (fun e => hl (e ▸ hm)) h hst) init s
    ⟨Nat.zero_le _, Nat.zero_le _, fun h => absurd rfl h, fun _ => rfl, fun h => by rcases h with h | h | h <;> first | exact absurd rfl h | cases h⟩ hr

/-- C140 (in part). A node sends the same contents to the same neighbour once at most, however often and from whomever it gets it, and
whatever it publishes, as long as it has not forgotten that it has seen it. -/
theorem C140_once_partial (ls : List Label) (s : State) (hr : run n init ls = some s) (v : Bytes) (hv : n.honest v = true)
    (hnd : (n.adj v).Nodup) (w data : Bytes) (hl : Label.forget v (msgID n data) ∉ ls) : sendings v w data s.log ≤ 1 :=
  (once_run ls s hr v hv hnd w data hl).sent

/-- C140 (in part). When the validation of a message ends, nothing is sent to the one whom it came from nor to the one who published it. -/
theorem C140_not_back_partial (s s' : State) (i : Nat) (lib : UInt64) (answer : Option Err) (p : Packet) (hp : s.judging[i]? = some p)
    (hst : step n s (.judge i lib answer) = some s') (w data : Bytes) (hw : w = p.source ∨ w = p.msg.sender) :
    sendings p.dest w data s'.log = sendings p.dest w data s.log := by
  cases ftr_of_step s s' _ hst with
  | judge _ _ _ q r ws hi hr hws =>
    rw [hi] at hp; cases hp
    have es := sendings_judge p.dest w data p r ws answer s.log
    have h0 : ws.count w = 0 := by
      rw [List.count_eq_zero, hws]
      split
      · rcases hw with rfl | rfl <;> simp
      · simp
    show sendings p.dest w data (_ ++ _) = _
    rw [es]
    split <;> simp [h0]

private theorem blockSendings_append (u w : Bytes) (b : RawBlock) (x y : List Flood.Obs) :
    blockSendings n u w b (x ++ y) = blockSendings n u w b x + blockSendings n u w b y := by
  simp [blockSendings, List.countP_append]

private theorem run_append (s : State) (ls ms : List Label) : run n s (ls ++ ms) = (run n s ls).bind fun s' => run n s' ms := by
  induction ls generalizing s with
  | nil => rfl
  | cons l ls ih =>
    simp only [List.cons_append, run]
    cases step n s l with
    | none => rfl
    | some s' => exact ih s'

/-- C140 (refuted in general). Identity of messages is of their bytes, not of the block in them: somebody who knows several encodings of the
same block makes a node send it that many times to each neighbour. -/
theorem C140_encodings_refuted (v a w : Bytes) (hv : n.honest v = true) (ha : n.honest a = false) (hw : w ∈ n.adj v) (hwa : w ≠ a)
    (b : RawBlock) (i prev : Bytes) (h : Header) (hi : b.id = some i) (hh : b.header = some h) (hp : h.previous = some prev) (ds : List Bytes)
    (hnd : (ds.map n.sha).Nodup) (hds : ∀ d ∈ ds, n.decode d = .ok b) (hroom : 0 < n.room) :
    ∃ ls s, run n init ls = some s ∧ ds.length ≤ blockSendings n v w b s.log := by
  suffices H : ∀ ds : List Bytes, (ds.map n.sha).Nodup → (∀ d ∈ ds, n.decode d = .ok b) →
      ∃ ls s, run n init ls = some s ∧ ds.length ≤ blockSendings n v w b s.log ∧ (∀ x, (v, x) ∈ s.seen → ∃ d ∈ ds, x = msgID n d) ∧ s.judging = [] from by
    obtain ⟨ls, s, h1, h2, _⟩ := H ds hnd hds
    exact ⟨ls, s, h1, h2⟩
  intro ds
  induction ds with
  | nil => intro _ _; exact ⟨[], init, rfl, Nat.zero_le _, fun x hx => (by cases hx), rfl⟩
  | cons d ds ih =>
    intro hnd hds
    obtain ⟨hd1, hnd⟩ := List.nodup_cons.1 (by simpa using hnd : (n.sha d :: ds.map n.sha).Nodup)
    obtain ⟨ls, s, h1, h2, h3, h4⟩ := ih hnd fun x hx => hds x (List.mem_cons_of_mem _ hx)
    have hns : (v, msgID n d) ∉ s.seen := by
      intro hs
      obtain ⟨d', hd', he⟩ := h3 _ hs
      exact hd1 (List.mem_map.2 ⟨d', hd', ((id_iff n _ _).1 he).symm⟩)
    let m : Msg := { data := d, sender := a, receivedFrom := a, key := a }
    have hva : a ≠ v := fun e => by rw [e, hv] at ha; cases ha
    obtain ⟨r1, r2⟩ := welcome_accepted { me := v, decode := n.decode, lib := 0, apply := fun _ => none, author := id } m b h prev i
      (hds d (List.mem_cons_self ..)) hi hh hp (Nat.zero_le _) rfl
    have r2 := r2 hva
    generalize hr : validateBlock { me := v, decode := n.decode, lib := 0, apply := fun _ => none, author := id } m = r at r1 r2
    refine ⟨ls ++ [.inject ⟨a, v, m⟩, .arrive s.flight.length, .judge s.judging.length 0 none], {
        seen := (v, msgID n d) :: s.seen
        judging := (s.judging ++ [(⟨a, v, m⟩ : Packet)]).eraseIdx s.judging.length
        flight := (s.flight ++ [(⟨a, v, m⟩ : Packet)]).eraseIdx s.flight.length ++ pass v m ((n.adj v).filter fun w => w ≠ a ∧ w ≠ a)
        log := ((n.adj v).filter fun w => w ≠ a ∧ w ≠ a).map (Obs.sent v · d) ++ (r.report.toList.map fun x => Obs.reported v x.1 x.2) ++
          Obs.judged v d r.accept :: (r.applied.map (Obs.applied v · none) ++ Obs.sent a v d :: s.log) }, ?_, ?_, ?_, ?_⟩
    · rw [run_append, h1]
      simp only [m] at hr
      simp [run, step, m, ha, hv, hva, hns, hr, r1, h4, Nat.ne_of_gt hroom]
    · rw [show Obs.judged v d r.accept :: (r.applied.map (Obs.applied v · none) ++ Obs.sent a v d :: s.log) =
        ([Obs.judged v d r.accept] ++ (r.applied.map (Obs.applied v · none) ++ [Obs.sent a v d])) ++ s.log by simp]
      simp only [blockSendings_append, List.length_cons]
      have : 1 ≤ blockSendings n v w b (((n.adj v).filter fun w => w ≠ a ∧ w ≠ a).map (Obs.sent v · d)) := by
        rw [blockSendings, List.one_le_countP_iff]
        exact ⟨.sent v w d, List.mem_map.2 ⟨w, List.mem_filter.2 ⟨hw, by simpa using hwa⟩, rfl⟩, by simp [hds d (List.mem_cons_self ..)]⟩
      omega
    · intro x hx
      rcases List.mem_cons.1 hx with hx | hx
      · exact ⟨d, List.mem_cons_self .., (Prod.mk.inj hx).2⟩
      · obtain ⟨d', hd', he⟩ := h3 x hx
        exact ⟨d', List.mem_cons_of_mem _ hd', he⟩
    · simp [h4]

/-- C140 (refuted in general). Messages that were seen are forgotten after some time: somebody who sends the same message again and again, each time
after it has been forgotten, makes a node send it to each neighbour as often. -/
theorem C140_forgotten_refuted (v a w : Bytes) (hv : n.honest v = true) (ha : n.honest a = false) (hw : w ∈ n.adj v) (hwa : w ≠ a)
    (b : RawBlock) (i prev : Bytes) (h : Header) (hi : b.id = some i) (hh : b.header = some h) (hp : h.previous = some prev) (d : Bytes)
    (hd : n.decode d = .ok b) (hroom : 0 < n.room) (k : Nat) : ∃ ls s, run n init ls = some s ∧ k ≤ sendings v w d s.log := by
  suffices H : ∃ ls s, run n init ls = some s ∧ k ≤ sendings v w d s.log ∧ (v, msgID n d) ∉ s.seen ∧ s.judging = [] from by
    obtain ⟨ls, s, h1, h2, _⟩ := H
    exact ⟨ls, s, h1, h2⟩
  induction k with
  | zero => exact ⟨[], init, rfl, Nat.zero_le _, fun hx => (by cases hx), rfl⟩
  | succ k ih =>
    obtain ⟨ls, s, h1, h2, hns, h4⟩ := ih
    let m : Msg := { data := d, sender := a, receivedFrom := a, key := a }
    have hva : a ≠ v := fun e => by rw [e, hv] at ha; cases ha
    obtain ⟨r1, r2⟩ := welcome_accepted { me := v, decode := n.decode, lib := 0, apply := fun _ => none, author := id } m b h prev i
      hd hi hh hp (Nat.zero_le _) rfl
    have r2 := r2 hva
    generalize hr : validateBlock { me := v, decode := n.decode, lib := 0, apply := fun _ => none, author := id } m = r at r1 r2
    refine ⟨ls ++ [.inject ⟨a, v, m⟩, .arrive s.flight.length, .judge s.judging.length 0 none, .forget v (msgID n d)], {
        seen := ((v, msgID n d) :: s.seen).filter (· ≠ (v, msgID n d))
        judging := (s.judging ++ [(⟨a, v, m⟩ : Packet)]).eraseIdx s.judging.length
        flight := (s.flight ++ [(⟨a, v, m⟩ : Packet)]).eraseIdx s.flight.length ++ pass v m ((n.adj v).filter fun w => w ≠ a ∧ w ≠ a)
        log := ((n.adj v).filter fun w => w ≠ a ∧ w ≠ a).map (Obs.sent v · d) ++ (r.report.toList.map fun x => Obs.reported v x.1 x.2) ++
          Obs.judged v d r.accept :: (r.applied.map (Obs.applied v · none) ++ Obs.sent a v d :: s.log) }, ?_, ?_, ?_, ?_⟩
    · rw [run_append, h1]
      simp only [m] at hr
      simp [run, step, m, ha, hv, hva, hns, hr, r1, h4, Nat.ne_of_gt hroom]
    · have e := sendings_judge v w d ⟨a, v, m⟩ r ((n.adj v).filter fun w => w ≠ a ∧ w ≠ a) none (Obs.sent a v d :: s.log)
      have e2 : sendings v w d (Obs.sent a v d :: s.log) = sendings v w d s.log := by simp [sendings, hva]
      have e3 : 1 ≤ ((n.adj v).filter fun w => w ≠ a ∧ w ≠ a).count w :=
        List.count_pos_iff.2 (List.mem_filter.2 ⟨hw, by simpa using hwa⟩)
      rw [if_pos ⟨rfl, rfl⟩, e2] at e
      show k + 1 ≤ sendings v w d (_ ++ _)
      rw [e]; omega
    · simp
    · simp [h4]

/-! ## C143 -/

/-- C143 (what happens instead). A node that has refused a block, because it came too early for instance, sends it to nobody, even if it has
it on its chain and publishes it afterwards, until it forgets that it has seen the message. -/
theorem C143_never_sent_partial (ls : List Label) (s : State) (hr : run n init ls = some s) (v : Bytes) (hv : n.honest v = true)
    (hnd : (n.adj v).Nodup) (data : Bytes) (hl : Label.forget v (msgID n data) ∉ ls) (h : Obs.judged v data false ∈ s.log) (w : Bytes) :
    sendings v w data s.log = 0 :=
  (once_run ls s hr v hv hnd w data hl).refused h

/-- C143 (in part). What a node publishes goes to all neighbours if it has not seen the message before, or has forgotten it. -/
theorem C143_published_partial (s s' : State) (v : Bytes) (b : RawBlock) (hn : (v, msgID n (n.encode b)) ∉ s.seen)
    (hst : step n s (.publish v b) = some s') (w : Bytes) (hw : w ∈ n.adj v) : Obs.sent v w (n.encode b) ∈ s'.log := by
  cases ftr_of_step s s' _ hst with
  | again _ _ _ hs => exact absurd hs hn
  | publish => exact List.mem_append_left _ (List.mem_map.2 ⟨w, hw, rfl⟩)

/-- C143 (in part). A node that accepts a message at once sends it to all neighbours but the one that it has it from and the one that published it. -/
theorem C143_sent_partial (ls : List Label) (s : State) (hr : run n init ls = some s) (v data : Bytes) (h : Obs.judged v data true ∈ s.log) :
    ∃ u a, ∀ w ∈ n.adj v, w ≠ u → w ≠ a → Obs.sent v w data ∈ s.log := by
  revert h
  refine run_ind (fun s => Obs.judged v data true ∈ s.log → ∃ u a, ∀ w ∈ n.adj v, w ≠ u → w ≠ a → Obs.sent v w data ∈ s.log) ?_ ls init s (fun h => by cases h) hr
  intro s s' l ih hst h
  have old : Obs.judged v data true ∈ s.log → ∃ u a, ∀ w ∈ n.adj v, w ≠ u → w ≠ a → Obs.sent v w data ∈ s'.log := by
    intro h
    obtain ⟨u, a, hu⟩ := ih h
    exact ⟨u, a, fun w hw hwu hwa => log_step s s' l (ftr_of_step s s' l hst) _ (hu w hw hwu hwa)⟩
  cases ftr_of_step s s' l hst with
  | again => exact old (by simpa using h)
  | publish => exact old (by simpa using h)
  | lost => exact old h
  | full => exact old h
  | arrive => exact old h
  | judge i lib answer p r ws hi hr hw =>
    simp only [List.mem_append, List.mem_cons, List.mem_map] at h
    rcases h with (⟨_, _, h⟩ | ⟨_, _, h⟩) | h | ⟨_, _, h⟩ | h
    · cases h
    · cases h
    · simp only [Obs.judged.injEq] at h
      obtain ⟨rfl, rfl, h⟩ := h
      refine ⟨p.source, p.msg.sender, fun w hw' hne hna => ?_⟩
      refine List.mem_append_left _ (List.mem_append_left _ (List.mem_map.2 ⟨w, ?_, rfl⟩))
      rw [hw, ← h, if_pos rfl]
      exact List.mem_filter.2 ⟨hw', by simp [hne, hna]⟩
    · cases h
    · exact old h
  | inject => exact old (by simpa using h)
  | forget => exact old h

/-! ## C141 -/

private def Good (n : Net) (verdict : RawBlock → Option Err) (data : Bytes) : Prop :=
  ∃ b, n.decode data = .ok b ∧ verdict b = none ∧ b.id ≠ none ∧ ∃ h, b.header = some h ∧ h.previous ≠ none

private structure Quiet (n : Net) (verdict : RawBlock → Option Err) (s : State) : Prop where
  packets : ∀ p, p ∈ s.flight ∨ p ∈ s.judging → p.msg.receivedFrom = p.source ∧ (n.honest p.source = true ∨ n.honest p.msg.sender = true → Good n verdict p.msg.data)
  judging : ∀ p ∈ s.judging, n.honest p.dest = true
  log : ∀ v q e, Obs.reported v q e ∈ s.log → n.honest q = false
  published : ∀ v b, Obs.published v b ∈ s.log → Good n verdict (n.encode b)

/-- An honest sender's message is not held against it. -/
private theorem good_quiet (env : GossipValidate.Env RawBlock) (m : Msg) (b : RawBlock)
    (hd : env.decode m.data = .ok b) (hv : env.apply b = none) (hi : b.id ≠ none) (h : Header) (hh : b.header = some h) (hp : h.previous ≠ none) :
    (validateBlock env m).report = none := by
  obtain ⟨i, hi⟩ := Option.ne_none_iff_exists'.1 hi
  obtain ⟨prev, hp⟩ := Option.ne_none_iff_exists'.1 hp
  by_cases hs : m.sender = env.me
  · simp [validateBlock, GossipValidate.applyBlock, hd, hs]
  · by_cases hl : h.height < env.lib
    · simp [validateBlock, GossipValidate.applyBlock, hd, hs, hi, hh, hp, hl, Err.is]
    · simp [validateBlock, GossipValidate.applyBlock, hd, hs, hi, hh, hp, hl, hv]

/-- Reports are about the neighbour a message came from. -/
private theorem report_target (env : GossipValidate.Env RawBlock) (m : Msg) (x : Bytes × Err) (h : (validateBlock env m).report = some x) :
    x.1 = m.receivedFrom := by
  unfold validateBlock GossipValidate.applyBlock at h
  split at h
  · cases h
  · rename_i bs e he
    split at h
    · cases h
    · have hf : e.is .forkBomb = false := by
        repeat' split at he
        all_goals (cases he <;> simp [Err.is, wrapS, noteS])
      simp only [hf] at h
      cases h; rfl

/-- What is accepted from others is good. -/
private theorem accept_good (env : GossipValidate.Env RawBlock) (m : Msg) (verdict : RawBlock → Option Err)
    (hag : ∀ b, env.decode m.data = .ok b → env.apply b = verdict b) (hs : m.sender ≠ env.me) (h : (validateBlock env m).accept = true) :
    ∃ b, env.decode m.data = .ok b ∧ verdict b = none ∧ b.id ≠ none ∧ ∃ h, b.header = some h ∧ h.previous ≠ none := by
  unfold validateBlock at h
  split at h
  · rename_i bs he
    unfold GossipValidate.applyBlock at he
    split at he
    · cases he
    rename_i b hb
    rw [if_neg hs] at he
    split at he
    · cases he
    rename_i i hi
    split at he
    · cases he
    rename_i hd hh
    split at he
    · cases he
    rename_i prev hp
    split at he
    · cases he
    split at he
    · cases he
    rename_i ha
    exact ⟨b, hb, by rw [← hag b hb]; exact ha, by rw [hi]; exact fun h => (by cases h), hd, hh, by rw [hp]; exact fun h => (by cases h)⟩
  · split at h <;> cases h

private theorem quiet_step (verdict : RawBlock → Option Err) (s s' : State) (l : Label) (hq : Quiet n verdict s)
    (ha : Agreed n verdict s l) (hst : step n s l = some s') : Quiet n verdict s' := by
  cases ftr_of_step s s' l hst with
  | again v b hv hs =>
    refine ⟨hq.packets, hq.judging, fun v q e h => hq.log v q e (by simpa using h), fun v' b' h => ?_⟩
    rcases List.mem_cons.1 h with h | h
    · obtain ⟨g1, g2, g3, g4⟩ := ha
      cases h
      exact ⟨b, g2, g1, g3, g4⟩
    · exact hq.published v' b' h
  | publish v b m hm hv hs =>
    subst hm
    refine ⟨?_, hq.judging, fun v q e h => hq.log v q e (by simpa using h), fun v' b' h => ?_⟩
    swap
    · rcases List.mem_append.1 h with h | h
      · simp at h
      rcases List.mem_cons.1 h with h | h
      · obtain ⟨g1, g2, g3, g4⟩ := ha
        cases h
        exact ⟨b, g2, g1, g3, g4⟩
      · exact hq.published v' b' h
    intro p hp
    rcases hp with hp | hp
    · rcases List.mem_append.1 hp with hp | hp
      · exact hq.packets p (Or.inl hp)
      · obtain ⟨h1, _, h2, h3, h4⟩ := mem_pass hp
        refine ⟨by rw [h4, h1], fun _ => ?_⟩
        obtain ⟨g1, g2, g3, g4⟩ := ha
        rw [h2]
        exact ⟨b, g2, g1, g3, g4⟩
    · exact hq.packets p (Or.inr hp)
  | lost i p hi hc => exact ⟨fun q h => hq.packets q (h.imp_left List.mem_of_mem_eraseIdx), hq.judging, hq.log, hq.published⟩
  | full i p hi => exact ⟨fun q h => hq.packets q (h.imp_left List.mem_of_mem_eraseIdx), hq.judging, hq.log, hq.published⟩
  | forget => exact ⟨hq.packets, hq.judging, hq.log, hq.published⟩
  | arrive i p hi hd _ hs =>
    have hin := List.mem_of_getElem? hi
    refine ⟨fun q h => hq.packets q ?_, ?_, hq.log, hq.published⟩
    · rcases h with h | h
      · exact Or.inl (List.mem_of_mem_eraseIdx h)
      · rcases List.mem_append.1 h with h | h
        · exact Or.inr h
        · simp only [List.mem_singleton] at h; subst h; exact Or.inl hin
    · intro q h
      rcases List.mem_append.1 h with h | h
      · exact hq.judging q h
      · simp only [List.mem_singleton] at h; subst h; exact hd
  | judge i lib answer p r ws hi hr hw =>
    have hin := List.mem_of_getElem? hi
    have hp := hq.packets p (Or.inr hin)
    have hd := hq.judging p hin
    refine ⟨?_, fun q h => hq.judging q (List.mem_of_mem_eraseIdx h), ?_, fun v b h => hq.published v b (by simpa using h)⟩
    · intro q hq'
      rcases hq' with hq' | hq'
      · rcases List.mem_append.1 hq' with h | h
        · exact hq.packets q (Or.inl h)
        · obtain ⟨h1, h0, h2, h3, h4⟩ := mem_pass h
          refine ⟨by rw [h4, h1], fun _ => ?_⟩
          rw [h2]
          by_cases hme : p.msg.sender = p.dest
          · exact hp.2 (Or.inr (by rw [hme]; exact hd))
          · have hacc : r.accept = true := by
              rw [hw] at h0
              split at h0
              · assumption
              · cases h0
            rw [hr] at hacc
            exact accept_good _ p.msg verdict (fun b hb => ha p b hi hb) hme hacc
      · exact hq.packets q (Or.inr (List.mem_of_mem_eraseIdx hq'))
    · intro v q e h
      simp only [List.mem_append, List.mem_map, List.mem_cons] at h
      rcases h with (⟨_, _, h⟩ | ⟨x, hx, h⟩) | h | ⟨_, _, h⟩ | h
      · cases h
      · have hx : r.report = some x := by simpa using hx
        cases h
        rw [hr] at hx
        have ht := report_target _ _ _ hx
        rw [ht, hp.1]
        by_contra hh
        obtain ⟨b, g1, g2, g3, hd', g4, g5⟩ := hp.2 (Or.inl (by simpa using hh))
        have := good_quiet { me := p.dest, decode := n.decode, lib := lib, apply := fun _ => answer, author := id } p.msg b g1
          (by rw [← g2]; exact ha p b hi g1) g3 hd' g4 g5
        rw [this] at hx; cases hx
      · cases h
      · cases h
      · exact hq.log v q e h
  | inject p h1 h3 h2 =>
    refine ⟨?_, hq.judging, fun v q e h => hq.log v q e (by simpa using h), fun v b h => hq.published v b (by simpa using h)⟩
    intro q h
    rcases h with h | h
    · rcases List.mem_append.1 h with h | h
      · exact hq.packets q (Or.inl h)
      · simp only [List.mem_singleton] at h
        subst h
        refine ⟨h3, fun h => ?_⟩
        rcases h with h | h
        · rw [h1] at h; cases h
        · rcases h2 with h2 | ⟨b, h2, h4⟩
          · rw [h2] at h; cases h
          · rw [← h4]; exact hq.published _ b h2
    · exact hq.packets q (Or.inr h)

/-- C141 (in part). Where all nodes judge blocks alike, no node accuses another one that runs this code for what it sent by gossip, whatever
others put into circulation. -/
theorem C141_no_accusations_partial (verdict : RawBlock → Option Err) (ls : List Label) (s : State) (ha : Along n (Agreed n verdict) init ls)
    (hr : run n init ls = some s) (v q : Bytes) (e : Err) (h : Obs.reported v q e ∈ s.log) : n.honest q = false := by
  have key : ∀ ls s0, Quiet n verdict s0 → Along n (Agreed n verdict) s0 ls → run n s0 ls = some s → Quiet n verdict s := by
    intro ls
    induction ls with
    | nil => intro s0 h _ hr; cases hr; exact h
    | cons l ls ih =>
      intro s0 h ha hr
      simp only [run] at hr
      split at hr
      · rename_i s1 h1
        exact ih s1 (quiet_step verdict _ _ _ h ha.1 h1) (ha.2 s1 h1) hr
      · cases hr
  exact (key ls init ⟨fun _ h => (by rcases h with h | h <;> cases h), fun _ h => (by cases h), fun _ _ _ h => (by cases h), fun _ _ h => (by cases h)⟩ ha hr).log v q e h

/-! ## Examples -/

private def fb : RawBlock := { id := some [7], header := some { previous := some [6], height := 5, timestamp := 0, signer := none } }
private def fc : RawBlock := { id := some [8], header := some { previous := some [7], height := 6, timestamp := 0, signer := none } }

/-- Nodes 1, 2 and 3 run this code, node 9 does not. Two blocks; the first has two encodings. -/
private def fnet (adj : Bytes → List Bytes) : Net where
  honest v := decide (v ∈ [[1], [2], [3]])
  adj := adj
  encode b := if b = fb then [1] else if b = fc then [2] else [0]
  decode x := if x = [1] ∨ x = [1, 0] then .ok fb else if x = [2] then .ok fc else .error (.other 0)
  sha := id
  room := 1024

/-- 1 - 2 - 3, and 9 beside 2. -/
private def fline (v : Bytes) : List Bytes := if v = [2] then [[1], [3], [9]] else [[2]]

/-- 1 - 2 and 1 - 3. -/
private def ffork (v : Bytes) : List Bytes := if v = [1] then [[2], [3]] else [[1]]

/-- C141 (refuted in general). A node whose chain is behind, or on another fork, accuses the honest neighbour that passed on a good block. -/
theorem C141_behind_refuted : ∃ (n : Net) (ls : List Label) (s : State) (u v w : Bytes) (b : RawBlock) (e : Err), run n init ls = some s ∧
    n.honest u = true ∧ n.honest v = true ∧ n.honest w = true ∧ Obs.published w b ∈ s.log ∧ Obs.applied u b none ∈ s.log ∧
    Obs.reported v w e ∈ s.log :=
  ⟨fnet ffork, [.publish [1] fb, .arrive 0, .arrive 0, .judge 0 0 (some (.sentinel .unknownPreviousBlock)), .judge 0 0 none], _, [3], [2], [1], fb,
    wrapS .blockApplication (.sentinel .unknownPreviousBlock), rfl, by decide +kernel⟩

private def fearly : List Label :=
  [.publish [1] fc, .arrive 0, .judge 0 0 (some (.sentinel .unknownPreviousBlock)), .publish [2] fb, .publish [2] fc]

private theorem fearly_run : ∃ s, run (fnet fline) init fearly = some s ∧ Obs.applied [2] fc (some (.sentinel .unknownPreviousBlock)) ∈ s.log ∧
    Obs.published [2] fc ∈ s.log ∧ Obs.judged [2] ((fnet fline).encode fc) false ∈ s.log := ⟨_, rfl, by decide +kernel⟩

/-- C143 (refuted). A node gets a block before its parent, refuses it, has it on its chain later (which it publishes), and from then on, whatever
happens, does not send it to anybody until it forgets that it has seen the message. -/
theorem C143_passed_on_refuted : ∃ (n : Net) (ls : List Label) (s : State) (v : Bytes) (b : RawBlock), run n init ls = some s ∧ n.honest v = true ∧
    (∃ e, Obs.applied v b (some e) ∈ s.log) ∧ Has v b s ∧ n.adj v ≠ [] ∧
    ∀ ls' s', Label.forget v (msgID n (n.encode b)) ∉ ls' → run n s ls' = some s' → ∀ w, sendings v w (n.encode b) s'.log = 0 := by
  obtain ⟨s, h1, h2, h3, h4⟩ := fearly_run
  refine ⟨fnet fline, fearly, s, [2], fc, h1, by decide +kernel, ⟨_, h2⟩, Or.inl h3, by decide +kernel, ?_⟩
  intro ls' s' hl hr w
  refine C143_never_sent_partial (n := fnet fline) (fearly ++ ls') s' (by rw [run_append, h1]; exact hr) [2] (by decide +kernel)
    (by decide +kernel) _ (fun h => (List.mem_append.1 h).elim (by simp [fearly]) hl) ?_ w
  exact run_ind (fun s => Obs.judged [2] ((fnet fline).encode fc) false ∈ s.log) (fun s s' l h hst => log_step s s' l (ftr_of_step s s' l hst) _ h) ls' s s' h4 hr

private def fjunk : Packet := ⟨[9], [2], { data := [4, 4], sender := [9], receivedFrom := [9], key := [9] }⟩

private def fls : List Label := [.inject fjunk, .publish [1] fb, .publish [1] fc, .arrive 2, .arrive 0, .arrive 0, .judge 2 0 none, .judge 0 0 none,
  .judge 0 0 none, .arrive 0, .arrive 0, .arrive 0, .arrive 0, .judge 0 0 none, .judge 0 0 none]

/-- In this run node 2 gets junk from 9, and the second block before the first. Then both spread; everything sent has arrived. -/
example : ((run (fnet fline) init fls).map fun s => (s.flight, s.judging, s.log)) = some ([], [], [
    .judged [3] [2] true, .applied [3] fc none, .judged [3] [1] true, .applied [3] fb none,
    .reported [2] [9] (wrapS .deserialization (.other 0)), .judged [2] [4, 4] false,
    .sent [2] [3] [2], .sent [2] [9] [2], .judged [2] [2] true, .applied [2] fc none,
    .sent [2] [3] [1], .sent [2] [9] [1], .judged [2] [1] true, .applied [2] fb none,
    .sent [1] [2] [2], .published [1] fc, .sent [1] [2] [1], .published [1] fb, .sent [9] [2] [4, 4]]) := by decide +kernel

private theorem fdecode (adj : Bytes → List Bytes) (x : Bytes) (b : RawBlock) (h : (fnet adj).decode x = .ok b) : b = fb ∨ b = fc := by
  simp only [fnet] at h
  split at h
  · cases h; exact Or.inl rfl
  · split at h
    · cases h; exact Or.inr rfl
    · cases h

private theorem along_of (P : State → Label → Prop) (ls : List Label) (h : ∀ l ∈ ls, ∀ s, P s l) : ∀ s, Along n P s ls := by
  induction ls with
  | nil => exact fun _ => trivial
  | cons l ls ih => exact fun s => ⟨h l (List.mem_cons_self ..) s, fun s' _ => ih (fun x hx => h x (List.mem_cons_of_mem _ hx)) s'⟩

private theorem fls_kinds (l : Label) (h : l ∈ fls) :
    l = .inject fjunk ∨ l = .publish [1] fb ∨ l = .publish [1] fc ∨ (∃ i, l = .arrive i) ∨ ∃ i, l = .judge i 0 none := by
  simp only [fls, List.mem_cons, List.not_mem_nil, or_false] at h
  rcases h with rfl | rfl | rfl | rfl | rfl | rfl | rfl | rfl | rfl | rfl | rfl | rfl | rfl | rfl | rfl <;> simp

/-- All judge alike in it, so C141 has something to say: the one that is accused does not run this code. -/
example : Along (fnet fline) (Agreed (fnet fline) fun b => if b = fb ∨ b = fc then none else some (.other 1)) init fls := by
  refine along_of _ _ ?_ _
  intro l hl s
  rcases fls_kinds l hl with rfl | rfl | rfl | ⟨i, rfl⟩ | ⟨i, rfl⟩
  · trivial
  · exact ⟨rfl, rfl, by decide, _, rfl, by decide⟩
  · exact ⟨rfl, rfl, by decide, _, rfl, by decide⟩
  · trivial
  · intro p b _ hb
    rcases fdecode fline _ b hb with rfl | rfl <;> rfl

/-- Node 9 passes on what node 1 has published, twice, the second time after node 2 has forgotten it. Node 2 sends it on again, but not to the one
that published it; what it gets back from itself is not looked at. -/
example : ((run (fnet fline) init [.publish [1] fb, .arrive 0, .judge 0 0 none, .forget [2] (msgID (fnet fline) [1]),
    .inject ⟨[9], [2], { data := [1], sender := [1], receivedFrom := [9], key := [1] }⟩,
    .inject ⟨[9], [1], { data := [1], sender := [1], receivedFrom := [9], key := [1] }⟩, .forget [1] (msgID (fnet fline) [1]), .arrive 2, .arrive 2,
    .judge 0 0 none]).map fun s => (s.judging, sendings [2] [3] [1] s.log, sendings [2] [1] [1] s.log, s.flight.map (·.dest))) =
    some ([], 2, 0, [[3], [9], [3]]) := by decide +kernel

/-- Nobody can make up a message of node 1. -/
example : (step (fnet fline) init (.inject ⟨[9], [2], { data := [1], sender := [1], receivedFrom := [9], key := [1] }⟩)).isNone := by decide +kernel

/-- After `fearly` and forgetting, the block is sent when it is published once more. -/
example : (run (fnet fline) init (fearly ++ [.forget [2] (msgID (fnet fline) [2]), .publish [2] fc])).map (fun s => sendings [2] [3] [2] s.log) = some 1 := by
  decide +kernel

/-- C140 for this run: the first block went once from 2 to 3. -/
example : (run (fnet fline) init fls).map (fun s => sendings [2] [3] [1] s.log) = some 1 ∧ (fline [2]).Nodup := by decide +kernel

/-- The hypotheses of the refutation of C140: two encodings. -/
example : ([[1], [1, 0]].map (fnet fline).sha).Nodup ∧ ∀ d ∈ [[1], [1, 0]], (fnet fline).decode d = .ok fb := by
  refine ⟨by decide +kernel, fun d hd => ?_⟩
  simp only [List.mem_cons, List.not_mem_nil, or_false] at hd
  simp [fnet, hd]

private def fev (k : Nat) : Label := fls[k]?.getD (.publish [1] fb)

private def fst : Nat → State
  | 0 => init
  | k + 1 => (step (fnet fline) (fst k) (fev k)).getD (fst k)

private theorem fev_later (k : Nat) : fev (15 + k) = .publish [1] fb := by
  have : fls[15 + k]? = none := List.getElem?_eq_none (by simp [fls])
  simp [fev, this]

private theorem fst_later (k : Nat) : (fst (15 + k)).flight = [] ∧ (fst (15 + k)).judging = [] ∧
    ([1], msgID (fnet fline) [1]) ∈ (fst (15 + k)).seen := by
  induction k with
  | zero => decide +kernel
  | succ k ih =>
    rw [show 15 + (k + 1) = (15 + k) + 1 from rfl, fst, fev_later]
    have : step (fnet fline) (fst (15 + k)) (.publish [1] fb) = some { fst (15 + k) with log := .published [1] fb :: (fst (15 + k)).log } := by
      have h : (fnet fline).encode fb = [1] := by decide +kernel
      have h2 : (fnet fline).honest [1] = true := by decide +kernel
      simp [step, h, h2, ih.2.2]
    rw [this]
    exact ih

private theorem fexec : Exec (fnet fline) fst fev := by
  refine ⟨rfl, fun k => ?_⟩
  have : (step (fnet fline) (fst k) (fev k)).isSome = true := by
    by_cases hk : k < 15
    · have : ∀ k, k < 15 → (step (fnet fline) (fst k) (fev k)).isSome = true := by decide +kernel
      exact this k hk
    · obtain ⟨j, rfl⟩ := Nat.exists_eq_add_of_le (Nat.le_of_not_lt hk)
      rw [fev_later]
      have h2 : (fnet fline).honest [1] = true := by decide +kernel
      simp only [step, h2]
      simp only [Bool.not_true, Bool.false_eq_true, if_false]
      split <;> rfl
  obtain ⟨s', hs⟩ := Option.isSome_iff_exists.1 this
  rw [fst, hs]; rfl

private theorem ffair : FairDelivery fst fev := by
  intro p k h
  have := h (15 + k) (by omega)
  rw [(fst_later k).1] at this
  cases this

private theorem fjudged (p : Packet) (k : Nat) (h : ∀ j, k ≤ j → p ∈ (fst j).judging) : False := by
  have := h (15 + k) (by omega)
  rw [(fst_later k).2.1] at this
  cases this

private theorem fshort (k : Nat) : (fst k).judging.length < 1024 := by
  by_cases hk : k < 15
  · have : ∀ k, k < 15 → (fst k).judging.length < 1024 := by decide +kernel
    exact this k hk
  · obtain ⟨j, rfl⟩ := Nat.exists_eq_add_of_le (Nat.le_of_not_lt hk)
    rw [(fst_later j).2.1]; decide

private theorem fwelcome (h : Header) (data : Bytes) (k : Nat) : Welcome (fnet fline) h data (fst k) (fev k) := by
  have hk : fev k = .publish [1] fb ∨ fev k ∈ fls := by
    unfold fev
    cases hh : fls[k]? with
    | none => exact Or.inl rfl
    | some l => exact Or.inr (List.mem_of_getElem? hh)
  generalize fev k = l at hk
  rcases hk with rfl | hk
  · trivial
  · rcases fls_kinds l hk with rfl | rfl | rfl | ⟨i, rfl⟩ | ⟨i, rfl⟩
    · trivial
    · trivial
    · trivial
    · exact fun p _ _ _ => Nat.lt_of_le_of_lt List.countP_le_length (fshort k)
    · exact fun p _ _ => ⟨Nat.zero_le _, rfl⟩

private theorem finj (b c : RawBlock) (hb : b = fb ∨ b = fc) (h : (fnet fline).encode c = (fnet fline).encode b) : c = b := by
  simp only [fnet] at h
  rcases hb with rfl | rfl
  · split at h
    · assumption
    · split at h <;> exact absurd h (by decide +kernel)
  · split at h
    · exact absurd h (by decide +kernel)
    · split at h
      · assumption
      · exact absurd h (by decide +kernel)

private theorem fpath : Path (fnet fline) [1] [3] :=
  .step [2] [3] (.step [1] [2] .here (by decide +kernel) (by decide +kernel)) (by decide +kernel) (by decide +kernel)

/-- A fair execution that meets the hypotheses of C139. -/
example : ∃ j, 2 ≤ j ∧ Has [3] fb (fst j) :=
  C139_reaches (n := fnet fline) fst fev fexec ffair fb (fun p k _ h => (fjudged p k h).elim) _ (by decide) rfl (by decide) (by decide +kernel)
    (fun c => finj fb c (Or.inl rfl)) (fun _ h => h) (fwelcome _ _) 2 [1] [3] (by decide +kernel) fpath

/-- It meets those of C142 with both blocks. -/
example : ∃ j, 3 ≤ j ∧ Has [3] fc (fst j) := by
  refine C142_chain (n := fnet fline) fst fev fexec ffair (fun i => if i = 0 then fb else fc) 1
    (fun i => if i = 0 then { previous := some [6], height := 5, timestamp := 0, signer := none }
      else { previous := some [7], height := 6, timestamp := 0, signer := none }) ?_ ?_ ?_ (fun _ _ _ h => h) (fun _ _ => fwelcome _ _)
    (fun p k _ h => (fjudged p k h).elim) (fun _ _ p k _ _ h => (fjudged p k h).elim) (fun _ => [1]) (fun _ _ _ h => h) 3 ?_ 1 (Nat.le_refl _) [3] fpath
  · intro i _
    by_cases h : i = 0 <;> simp [h, fb, fc]
  · intro i _
    by_cases h : i = 0
    · simp only [h, if_true]; decide +kernel
    · simp only [h, if_false]; decide +kernel
  · intro i _ a ha
    by_cases h : i = 0
    · simp only [h, if_true] at ha ⊢; exact finj fb a (Or.inl rfl) ha
    · simp only [h, if_false] at ha ⊢; exact finj fc a (Or.inr rfl) ha
  · intro i _
    by_cases h : i = 0
    · simp only [h, if_true]; decide +kernel
    · simp only [h, if_false]; decide +kernel

end KP2P

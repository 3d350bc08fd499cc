import Verif.Spec.Whole
import Verif.Proof.Flood
import Verif.Props.AllAccepted
/-!
# C144: in the end a block is on the chain of every node
-/

namespace KP2P
open KP2P.Whole KP2P.Spec.Whole
open KP2P.Flood (Net Packet)

namespace Whole

variable {n : Net} {o : AppOpts}

/-! ## What a step is for the network and for a node -/

/-- What the step is for the network; anything that happens inside a node is a pause. -/
def wire (s : State) : Label → Flood.Label
  | .publish v b => .publish v b
  | .arrive i => .arrive i
  | .inject p => .inject p
  | .forget v id => .forget v id
  | .finish i lib => match s.net.judging[i]? with
    | none => .publish [] { id := none, header := none }
    | some p => match callOf s p with
      | some c => match resultOf (s.node p.dest).app.log c.number with
        | some e => .judge i c.lib e
        | none => .publish [] { id := none, header := none }
      | none => .judge i lib none
  | _ => .publish [] { id := none, header := none }

theorem pause (x : Link.State) : Link.step o x (.act (.tick 0)) = some x := by
  simp [Link.step, App.step]

/-- The steps. -/
inductive Tr (n : Net) (o : AppOpts) (s : State) : Label → State → Prop where
  | node (v : Bytes) (l : Link.Label) (x : Link.State) (hv : n.honest v = true) (hx : Link.step o (s.node v) l = some x) :
    Tr n o s (.node v l) { s with node := Function.update s.node v x }
  | publish (v : Bytes) (b : RawBlock) (x : Flood.State) (hb : Link.Has (s.node v) (str b.id))
      (hx : Flood.step n s.net (.publish v b) = some x) : Tr n o s (.publish v b) { s with net := x }
  | arrive (i : Nat) (x : Flood.State) (hx : Flood.step n s.net (.arrive i) = some x) : Tr n o s (.arrive i) { s with net := x }
  | inject (p : Packet) (x : Flood.State) (hx : Flood.step n s.net (.inject p) = some x) : Tr n o s (.inject p) { s with net := x }
  | forget (v id : Bytes) (x : Flood.State) (hj : ∀ p ∈ s.net.judging, ¬ (p.dest = v ∧ Flood.msgID n p.msg.data = id))
      (hx : Flood.step n s.net (.forget v id) = some x) : Tr n o s (.forget v id)
    { s with net := x, calls := s.calls.filter fun c => !decide (c.node = v ∧ Flood.msgID n c.data = id) }
  | submit (i : Nat) (lib : UInt64) (p : Packet) (b : RawBlock) (bs : List RawBlock) (k : Blk) (x : Link.State)
      (hi : s.net.judging[i]? = some p) (hc : callOf s p = none) (hh : handed n p lib = b :: bs) (hk : b.toBlk = some k)
      (hx : Link.step o (s.node p.dest) (.act (.applyBlock k)) = some x) :
    Tr n o s (.submit i lib) { s with
      node := Function.update s.node p.dest x
      calls := s.calls ++ [⟨p.dest, p.msg.data, (s.node p.dest).app.nextReq, lib⟩] }
  | answered (i : Nat) (lib : UInt64) (p : Packet) (c : Call) (e : Option Err) (x : Flood.State) (hi : s.net.judging[i]? = some p)
      (hc : callOf s p = some c) (he : resultOf (s.node p.dest).app.log c.number = some e)
      (hx : Flood.step n s.net (.judge i c.lib e) = some x) : Tr n o s (.finish i lib) { s with net := x }
  | early (i : Nat) (lib : UInt64) (p : Packet) (x : Flood.State) (hi : s.net.judging[i]? = some p) (hc : callOf s p = none)
      (hh : handed n p lib = []) (hx : Flood.step n s.net (.judge i lib none) = some x) : Tr n o s (.finish i lib) { s with net := x }

theorem tr_of_step {s s' : State} {l : Label} (h : step n o s l = some s') : Tr n o s l s' := by
  cases l with
  | node v l =>
    simp only [step] at h
    split at h
    · rename_i hv
      obtain ⟨x, hx, rfl⟩ := Option.map_eq_some_iff.1 h
      exact .node v l x hv hx
    · cases h
  | publish v b =>
    simp only [step] at h
    split at h
    · rename_i hv
      obtain ⟨x, hx, rfl⟩ := Option.map_eq_some_iff.1 h
      exact .publish v b x hv hx
    · cases h
  | arrive i =>
    obtain ⟨x, hx, rfl⟩ := Option.map_eq_some_iff.1 h
    exact .arrive i x hx
  | inject i =>
    obtain ⟨x, hx, rfl⟩ := Option.map_eq_some_iff.1 h
    exact .inject i x hx
  | forget v id =>
    simp only [step] at h
    split at h
    · cases h
    rename_i hj
    obtain ⟨x, hx, rfl⟩ := Option.map_eq_some_iff.1 h
    refine .forget v id x (fun p hp hc => hj ?_) hx
    exact List.any_eq_true.2 ⟨p, hp, by simpa using hc⟩
  | submit i lib =>
    simp only [step] at h
    split at h
    · cases h
    rename_i p hi
    split at h
    · cases h
    rename_i hc
    split at h
    · rename_i b bs hh
      split at h
      · cases h
      rename_i k hk
      obtain ⟨x, hx, rfl⟩ := Option.map_eq_some_iff.1 h
      exact .submit i lib p b bs k x hi (by simpa using hc) hh hk hx
    · cases h
  | finish i lib =>
    simp only [step] at h
    split at h
    · cases h
    rename_i p hi
    split at h
    · rename_i c hc
      split at h
      · rename_i e he
        obtain ⟨x, hx, rfl⟩ := Option.map_eq_some_iff.1 h
        exact .answered i lib p c e x hi hc he hx
      · cases h
    · rename_i hc
      split at h
      · rename_i hh
        obtain ⟨x, hx, rfl⟩ := Option.map_eq_some_iff.1 h
        exact .early i lib p x hi hc hh hx
      · cases h

theorem node_step {s s' : State} {l : Label} (v : Bytes) (h : Tr n o s l s') :
    Link.step o (s.node v) (here n v s l) = some (s'.node v) := by
  cases h with
  | node w l x hw hx =>
    by_cases hv : w = v
    · subst hv; simp only [here, if_pos, Function.update_self]; exact hx
    · simp only [here, if_neg hv, Function.update_of_ne (Ne.symm hv)]; exact pause _
  | submit i lib p b bs k x hi hc hh hk hx =>
    by_cases hv : p.dest = v
    · subst hv; simp only [here, hi, if_pos, hh, hk, Function.update_self]; exact hx
    · simp only [here, hi, if_neg hv, Function.update_of_ne (Ne.symm hv)]; exact pause _
  | _ => exact pause _

theorem net_step {s s' : State} {l : Label} (h : Tr n o s l s') : Flood.Step n s.net (wire s l) s'.net := by
  cases h with
  | node => exact Or.inr ⟨rfl, _, _, rfl⟩
  | submit => exact Or.inr ⟨rfl, _, _, rfl⟩
  | publish v b x hb hx => exact Or.inl (Flood.ftr_of_step _ _ _ hx)
  | arrive i x hx => exact Or.inl (Flood.ftr_of_step _ _ _ hx)
  | inject p x hx => exact Or.inl (Flood.ftr_of_step _ _ _ hx)
  | forget v id x hj hx => exact Or.inl (Flood.ftr_of_step _ _ _ hx)
  | answered i lib p c e x hi hc he hx => simp only [wire, hi, hc, he]; exact Or.inl (Flood.ftr_of_step _ _ _ hx)
  | early i lib p x hi hc hh hx => simp only [wire, hi, hc]; exact Or.inl (Flood.ftr_of_step _ _ _ hx)

/-! ## Things that stay -/

theorem find_append {α : Type} (l m : List α) (f : α → Bool) (x : α) (h : l.find? f = some x) : (l ++ m).find? f = some x := by
  rw [List.find?_append, h]; rfl

theorem callOf_step {s s' : State} {l : Label} (h : Tr n o s l s') (p : Packet) (c : Call)
    (hl : p ∈ s.net.judging ∨ ∀ v id, l ≠ .forget v id) (hc : callOf s p = some c) : callOf s' p = some c := by
  cases h with
  | submit => exact find_append _ _ _ _ hc
  | forget v id x hj =>
    have hp := hl.resolve_right fun h => h v id rfl
    rw [callOf, List.find?_filter, ← hc, callOf]
    congr 1
    funext a
    by_cases h : a.node = p.dest ∧ a.data = p.msg.data
    · have := hj p hp
      rw [h.1, h.2]
      simp [this]
    · simp [h]
  | _ => exact hc

theorem has_step {x x' : Link.State} {l : Link.Label} (h : Link.step o x l = some x') (y : Bytes × UInt64) (hy : y ∈ x.accepted) :
    y ∈ x'.accepted := by
  cases l with
  | accept id prev m => obtain ⟨_, _, rfl⟩ := Link.step_accept h; exact List.mem_cons_of_mem _ hy
  | deliver i => obtain ⟨id, m, a, hn, ha, rfl⟩ := Link.step_deliver h; exact hy
  | act l => obtain ⟨a, ha, rfl, _⟩ := Link.step_act h; exact hy

theorem log_step {x x' : Link.State} {l : Link.Label} (hinv : App.Inv o x.app) (h : Link.step o x l = some x') (y : Obs) (hy : y ∈ x.app.log) :
    y ∈ x'.app.log := by
  cases l with
  | accept id prev m => obtain ⟨_, _, rfl⟩ := Link.step_accept h; exact hy
  | deliver i => obtain ⟨id, m, a, hn, ha, rfl⟩ := Link.step_deliver h; exact log_grows hinv ha _ hy
  | act l => obtain ⟨a, ha, rfl, _⟩ := Link.step_act h; exact log_grows hinv ha _ hy

theorem mono {α : Type} (P : State → α → Prop) {σ : Nat → State} (hP : ∀ k x, P (σ k) x → P (σ (k + 1)) x) {x : α} {k j : Nat}
    (hkj : k ≤ j) (h : P (σ k) x) : P (σ j) x := by
  obtain ⟨i, rfl⟩ := Nat.exists_eq_add_of_le hkj
  induction i with
  | zero => exact h
  | succ i ih => exact hP _ _ (ih (by omega))

/-! ## What validators hand over, and what calls return -/

theorem handed_cases (p : Packet) (lib : UInt64) (b : RawBlock) (bs : List RawBlock) (h : handed n p lib = b :: bs) :
    n.decode p.msg.data = .ok b ∧ ∀ x, b.header = some x → lib.toNat ≤ x.height.toNat := by
  unfold handed GossipValidate.applyBlock at h
  split at h
  · cases h
  rename_i b' hb'
  simp only at h hb'
  split at h
  · cases h
  split at h
  · cases h
  split at h
  · cases h
  rename_i hd hhd
  split at h
  · cases h
  split at h
  · cases h
  rename_i hlt
  simp only [List.cons.injEq] at h
  obtain ⟨rfl, _⟩ := h
  refine ⟨hb', fun x hx => ?_⟩
  rw [hhd] at hx; cases hx
  rw [UInt64.lt_iff_toNat_lt] at hlt
  omega

theorem handed_good (p : Packet) (lib : UInt64) (b : RawBlock) (x : Header) (hd : n.decode p.msg.data = .ok b) (hs : p.msg.sender ≠ p.dest)
    (hi : b.id ≠ none) (hh : b.header = some x) (hp : x.previous ≠ none) (hl : lib.toNat ≤ x.height.toNat) : handed n p lib = [b] := by
  obtain ⟨i, hi⟩ := Option.ne_none_iff_exists'.1 hi
  obtain ⟨q, hq⟩ := Option.ne_none_iff_exists'.1 hp
  have hnl : ¬ x.height < lib := by rw [UInt64.lt_iff_toNat_lt]; omega
  simp [handed, GossipValidate.applyBlock, hd, hs, hi, hh, hq, hnl]

theorem result_mem {log : List Obs} {r : Nat} {e : Option Err} (h : resultOf log r = some e) :
    Obs.returned r e ∈ log ∨ Obs.refused r e ∈ log := by
  obtain ⟨x, hx, h⟩ := List.exists_of_findSome?_eq_some h
  cases x <;> simp only [reduceCtorEq] at h
  · split at h
    · rename_i hr; cases h; subst hr; exact Or.inr hx
    · cases h
  · split at h
    · rename_i hr; cases h; subst hr; exact Or.inl hx
    · cases h

theorem result_some {log : List Obs} {r : Nat} {e : Option Err} (h : Obs.returned r e ∈ log) : ∃ e', resultOf log r = some e' := by
  rw [← Option.isSome_iff_exists, resultOf, List.findSome?_isSome_iff]
  exact ⟨_, h, by simp⟩

theorem applied_eq (env : GossipValidate.Env RawBlock) (m : GossipValidate.Msg) :
    (GossipValidate.validateBlock env m).applied = (GossipValidate.applyBlock env m).1 := by
  unfold GossipValidate.validateBlock
  split
  · rename_i h; rw [h]
  · rename_i h; rw [h]; split <;> rfl

/-- What is handed over does not depend on the answer. -/
theorem handed_eq (p : Packet) (lib : UInt64) (answer : Option Err) :
    (GossipValidate.applyBlock { me := p.dest, decode := n.decode, lib := lib, apply := fun _ => answer, author := id } p.msg).1 = handed n p lib := by
  simp only [handed, GossipValidate.applyBlock]
  cases n.decode p.msg.data with
  | error => rfl
  | ok b =>
    dsimp only
    by_cases h : p.msg.sender = p.dest
    · simp only [if_pos h]
    simp only [if_neg h]
    cases b.id with
    | none => rfl
    | some i =>
      cases b.header with
      | none => rfl
      | some x =>
        cases hp : x.previous with
        | none => simp only [hp]
        | some q =>
          simp only [hp]
          by_cases hl : x.height < lib
          · simp only [if_pos hl]
          · simp only [if_neg hl]
            cases answer <;> rfl

theorem applied_decode (env : GossipValidate.Env RawBlock) (m : GossipValidate.Msg) (b : RawBlock)
    (h : b ∈ (GossipValidate.applyBlock env m).1) : env.decode m.data = .ok b := by
  unfold GossipValidate.applyBlock at h
  split at h
  · cases h
  rename_i b' hb'
  rw [hb']
  repeat' (split at h)
  all_goals first | (cases h; done) | (simp only [List.mem_singleton] at h; rw [h])

theorem callOf_mem {s : State} {p : Packet} {c : Call} (h : callOf s p = some c) : c ∈ s.calls ∧ c.node = p.dest ∧ c.data = p.msg.data := by
  refine ⟨List.mem_of_find?_eq_some h, ?_⟩
  have := List.find?_some h
  simpa using this

/-! ## The invariant -/

structure WInv (n : Net) (s : State) : Prop where
  dest : ∀ p ∈ s.net.judging, n.honest p.dest = true
  calls : ∀ c ∈ s.calls, n.honest c.node = true ∧ ∃ b k, n.decode c.data = .ok b ∧ b.toBlk = some k ∧
    Obs.call c.number k ∈ (s.node c.node).app.log ∧ ∀ x, b.header = some x → c.lib.toNat ≤ x.height.toNat
  applied : ∀ v b e, Flood.Obs.applied v b e ∈ s.net.log → n.honest v = true ∧ ∃ k r, b.toBlk = some k ∧
    Obs.call r k ∈ (s.node v).app.log ∧ (Obs.returned r e ∈ (s.node v).app.log ∨ Obs.refused r e ∈ (s.node v).app.log)
  published : ∀ v b, Flood.Obs.published v b ∈ s.net.log → n.honest v = true ∧ Link.Has (s.node v) (str b.id)

/-- What the network does to the part of the invariant that speaks of it. -/
theorem net_facts {s s' : Flood.State} {l : Flood.Label} (h : Flood.FTr n s l s') :
    (∀ p ∈ s'.judging, p ∈ s.judging ∨ n.honest p.dest = true) ∧
    (∀ v b e, Flood.Obs.applied v b e ∈ s'.log → Flood.Obs.applied v b e ∈ s.log ∨ ∃ i lib p, l = .judge i lib e ∧
      s.judging[i]? = some p ∧ p.dest = v ∧ b ∈ handed n p lib) ∧
    ∀ v b, Flood.Obs.published v b ∈ s'.log → Flood.Obs.published v b ∈ s.log ∨ (l = .publish v b ∧ n.honest v = true) := by
  cases h with
  | again v b hv hs =>
    refine ⟨fun p hp => Or.inl hp, fun w c _ hc => Or.inl (by simpa using hc), fun w c hc => ?_⟩
    rcases List.mem_cons.1 hc with h | h
    · cases h; exact Or.inr ⟨rfl, hv⟩
    · exact Or.inl h
  | publish v b m hm hv hs =>
    refine ⟨fun p hp => Or.inl hp, fun w c _ hc => Or.inl (by simpa using hc), fun w c hc => ?_⟩
    rcases List.mem_append.1 hc with h | h
    · simp at h
    rcases List.mem_cons.1 h with h | h
    · cases h; exact Or.inr ⟨rfl, hv⟩
    · exact Or.inl h
  | lost => exact ⟨fun p hp => Or.inl hp, fun _ _ _ h => Or.inl h, fun _ _ h => Or.inl h⟩
  | full => exact ⟨fun p hp => Or.inl hp, fun _ _ _ h => Or.inl h, fun _ _ h => Or.inl h⟩
  | forget => exact ⟨fun p hp => Or.inl hp, fun _ _ _ h => Or.inl h, fun _ _ h => Or.inl h⟩
  | arrive i p hi hd hs =>
    refine ⟨fun q hq => ?_, fun _ _ _ h => Or.inl h, fun _ _ h => Or.inl h⟩
    rcases List.mem_append.1 hq with h | h
    · exact Or.inl h
    · simp only [List.mem_singleton] at h; subst h; exact Or.inr hd
  | judge i lib answer p r ws hi hr hw =>
    refine ⟨fun q hq => Or.inl (List.mem_of_mem_eraseIdx hq), fun v b e hb => ?_, fun v b hb => Or.inl (by simpa using hb)⟩
    have hb : Flood.Obs.applied v b e ∈ r.applied.map (Flood.Obs.applied p.dest · answer) ++ s.log := by simpa using hb
    rcases List.mem_append.1 hb with h | h
    · obtain ⟨b', hb', h⟩ := List.mem_map.1 h
      cases h
      rw [hr, applied_eq, handed_eq] at hb'
      exact Or.inr ⟨i, lib, p, rfl, hi, rfl, hb'⟩
    · exact Or.inl h
  | inject p h1 h2 h3 => exact ⟨fun p hp => Or.inl hp, fun w c _ hc => Or.inl (by simpa using hc), fun w c hc => Or.inl (by simpa using hc)⟩

theorem winv_step {s s' : State} {l : Label} (hi : WInv n s) (hn : ∀ v, n.honest v = true → App.Inv o (s.node v).app ∧ App.Prov (s.node v).app)
    (h : Tr n o s l s') : WInv n s' := by
  have hlog : ∀ v, n.honest v = true → ∀ x ∈ (s.node v).app.log, x ∈ (s'.node v).app.log :=
    fun v hv x hx => log_step (hn v hv).1 (node_step v h) x hx
  have hacc : ∀ v, ∀ x ∈ (s.node v).accepted, x ∈ (s'.node v).accepted := fun v x hx => has_step (node_step v h) x hx
  have calls : ∀ c ∈ s.calls, n.honest c.node = true ∧ ∃ b k, n.decode c.data = .ok b ∧ b.toBlk = some k ∧
      Obs.call c.number k ∈ (s'.node c.node).app.log ∧ ∀ x, b.header = some x → c.lib.toNat ≤ x.height.toNat := by
    intro c hc
    obtain ⟨h1, b, k, h2, h3, h4, h5⟩ := hi.calls c hc
    exact ⟨h1, b, k, h2, h3, hlog _ h1 _ h4, h5⟩
  have old_a : ∀ v b e, Flood.Obs.applied v b e ∈ s.net.log → n.honest v = true ∧ ∃ k r, b.toBlk = some k ∧
      Obs.call r k ∈ (s'.node v).app.log ∧ (Obs.returned r e ∈ (s'.node v).app.log ∨ Obs.refused r e ∈ (s'.node v).app.log) := by
    intro v b e hb
    obtain ⟨h1, k, r, h2, h3, h4⟩ := hi.applied v b e hb
    exact ⟨h1, k, r, h2, hlog _ h1 _ h3, h4.imp (hlog _ h1 _) (hlog _ h1 _)⟩
  have old_p : ∀ v b, Flood.Obs.published v b ∈ s.net.log → n.honest v = true ∧ Link.Has (s'.node v) (str b.id) := by
    intro v b hb
    obtain ⟨h1, m, h2⟩ := hi.published v b hb
    exact ⟨h1, m, hacc _ _ h2⟩
  have dest : ∀ p ∈ s'.net.judging, p ∈ s.net.judging ∨ n.honest p.dest = true := by
    rcases net_step h with h | ⟨h, _⟩
    · exact (net_facts h).1
    · rw [h]; exact fun p hp => Or.inl hp
  have dest : ∀ p ∈ s'.net.judging, n.honest p.dest = true := fun p hp => (dest p hp).elim (hi.dest p) id
  cases h with
  | node v l x hv hx => exact ⟨dest, calls, old_a, old_p⟩
  | publish v b x hb hx =>
    have hf := net_facts (Flood.ftr_of_step _ _ _ hx)
    refine ⟨dest, calls, fun w c e' hc => ?_, fun w c hc => ?_⟩
    · rcases hf.2.1 w c e' hc with h | ⟨i, lib, p, h, _⟩
      · exact old_a w c e' h
      · cases h
    · rcases hf.2.2 w c hc with h | ⟨h, hw⟩
      · exact old_p w c h
      · cases h; exact ⟨hw, hb⟩
  | arrive i x hx =>
    have hf := net_facts (Flood.ftr_of_step _ _ _ hx)
    refine ⟨dest, calls, fun w c e' hc => ?_, fun w c hc => ?_⟩
    · rcases hf.2.1 w c e' hc with h | ⟨i, lib, p, h, _⟩
      · exact old_a w c e' h
      · cases h
    · rcases hf.2.2 w c hc with h | ⟨h, hw⟩
      · exact old_p w c h
      · cases h
  | inject p x hx =>
    have hf := net_facts (Flood.ftr_of_step _ _ _ hx)
    refine ⟨dest, calls, fun w c e' hc => ?_, fun w c hc => ?_⟩
    · rcases hf.2.1 w c e' hc with h | ⟨i, lib, p, h, _⟩
      · exact old_a w c e' h
      · cases h
    · rcases hf.2.2 w c hc with h | ⟨h, hw⟩
      · exact old_p w c h
      · cases h
  | forget v id x hj hx =>
    have hf := net_facts (Flood.ftr_of_step _ _ _ hx)
    refine ⟨dest, fun c hc => calls c (List.mem_of_mem_filter hc), fun w c e' hc => ?_, fun w c hc => ?_⟩
    · rcases hf.2.1 w c e' hc with h | ⟨i, lib, p, h, _⟩
      · exact old_a w c e' h
      · cases h
    · rcases hf.2.2 w c hc with h | ⟨h, hw⟩
      · exact old_p w c h
      · cases h
  | submit i lib p b bs k x hj hc hh hk hx =>
    refine ⟨dest, fun c hc => ?_, old_a, old_p⟩
    rcases List.mem_append.1 hc with h | h
    · exact calls c h
    · simp only [List.mem_singleton] at h
      subst h
      obtain ⟨h1, h2⟩ := handed_cases p lib b bs hh
      refine ⟨hi.dest p (List.mem_of_getElem? hj), b, k, h1, hk, ?_, h2⟩
      simp only [Function.update_self]
      simp only [Link.step, App.step, Option.map_some, Option.some.injEq] at hx
      subst hx
      simp only [App.applyBlock]
      split <;> simp
  | answered i lib p c e x hj hc he hx =>
    have hf := net_facts (Flood.ftr_of_step _ _ _ hx)
    refine ⟨dest, calls, fun w d e' hd => ?_, fun w c hc => ?_⟩
    · rcases hf.2.1 w d e' hd with h | ⟨i', lib', q, h, hq, rfl, hdq⟩
      · exact old_a w d e' h
      · cases h
        rw [hj] at hq; cases hq
        have hdec : n.decode p.msg.data = .ok d := applied_decode _ _ _ hdq
        obtain ⟨hm, hn1, hn2⟩ := callOf_mem hc
        obtain ⟨h1, b, k, h2, h3, h4, _⟩ := hi.calls c hm
        rw [hn2, hdec] at h2
        cases h2
        rw [hn1] at h1 h4
        exact ⟨h1, k, c.number, h3, h4, result_mem he⟩
    · rcases hf.2.2 w c hc with h | ⟨h, hw⟩
      · exact old_p w c h
      · cases h
  | early i lib p x hj hc hh hx =>
    have hf := net_facts (Flood.ftr_of_step _ _ _ hx)
    refine ⟨dest, calls, fun w d e' hd => ?_, fun w c hc => ?_⟩
    · rcases hf.2.1 w d e' hd with h | ⟨i', lib', q, h, hq, rfl, hdq⟩
      · exact old_a w d e' h
      · cases h
        rw [hj] at hq; cases hq
        rw [hh] at hdq; cases hdq
    · rcases hf.2.2 w c hc with h | ⟨h, hw⟩
      · exact old_p w c h
      · cases h

/-! ## Along an execution -/

section exec
variable {σ : Nat → State} {ev : Nat → Label} (hx : Exec n o σ ev)
include hx

theorem tr (k : Nat) : Tr n o (σ k) (ev k) (σ (k + 1)) := tr_of_step (hx.steps k)

theorem reach (P : Link.State → Link.Label → Prop) (v : Bytes) (hv : n.honest v = true)
    (hP : ∀ k, P ((σ k).node v) (here n v (σ k) (ev k))) (k : Nat) : Link.Reach o P ((σ k).node v) := by
  induction k with
  | zero => obtain ⟨hi, lib, now, known, h1, h2⟩ := hx.fresh v hv; rw [h2]; exact .init hi lib now known h1
  | succ k ih => exact .step ih (hP k) (node_step v (tr hx k))

theorem sound (v : Bytes) (hv : n.honest v = true) (k : Nat) : App.Inv o ((σ k).node v).app ∧ App.Prov ((σ k).node v).app :=
  have h := Link.reach_app (reach hx (fun _ _ => True) v hv (fun _ => trivial) k)
  ⟨App.inv_reachable h, App.prov_reachable h⟩

theorem winv (k : Nat) : WInv n (σ k) := by
  induction k with
  | zero =>
    rw [hx.start]
    exact ⟨fun _ h => (by cases h), fun _ h => (by cases h), fun _ _ _ h => (by cases h), fun _ _ h => (by cases h)⟩
  | succ k ih => exact winv_step ih (fun v hv => sound hx v hv k) (tr hx k)

theorem log_mono (v : Bytes) (hv : n.honest v = true) {k j : Nat} (hkj : k ≤ j) {x : Obs} (h : x ∈ ((σ k).node v).app.log) :
    x ∈ ((σ j).node v).app.log :=
  mono (fun s y => y ∈ (s.node v).app.log) (fun k y hy => log_step (sound hx v hv k).1 (node_step v (tr hx k)) y hy) hkj h

theorem acc_mono (v : Bytes) {k j : Nat} (hkj : k ≤ j) {x : Bytes × UInt64} (h : x ∈ ((σ k).node v).accepted) : x ∈ ((σ j).node v).accepted :=
  mono (fun s y => y ∈ (s.node v).accepted) (fun k y hy => has_step (node_step v (tr hx k)) y hy) hkj h

theorem call_mono {k j : Nat} (hkj : k ≤ j) {p : Packet} {c : Call}
    (hl : ∀ e, k ≤ e → p ∈ (σ e).net.judging ∨ ∀ v id, ev e ≠ .forget v id) (h : callOf (σ k) p = some c) : callOf (σ j) p = some c := by
  obtain ⟨i, rfl⟩ := Nat.exists_eq_add_of_le hkj
  induction i with
  | zero => exact h
  | succ i ih => exact callOf_step (tr hx (k + i)) p c (hl _ (by omega)) (ih (by omega))

theorem loose : Flood.Loose n (fun k => (σ k).net) (fun k => wire (σ k) (ev k)) :=
  ⟨by show (σ 0).net = _; rw [hx.start]; rfl, fun k => net_step (tr hx k)⟩

/-- Validators make only finitely many calls at a node. -/
theorem calls_end (hfin : Finite n σ ev) (v : Bytes) : ∃ K, ∀ k, K ≤ k → ∀ i lib p, ev k = .submit i lib → (σ k).net.judging[i]? = some p →
    p.dest ≠ v := by
  obtain ⟨D, hD⟩ := hfin.contents
  obtain ⟨K0, hK0⟩ := hfin.remembered
  have cont : ∀ k p, p ∈ (σ k).net.flight ∨ p ∈ (σ k).net.judging → p.msg.data ∈ D := by
    intro k
    induction k with
    | zero => rw [hx.start]; intro p hp; rcases hp with hp | hp <;> cases hp
    | succ k ih =>
      intro p hp
      have htr := tr hx k
      have hDk := hD k
      generalize ev k = l at htr hDk
      generalize σ (k + 1) = s' at htr hp
      have keep : s'.net = (σ k).net → p.msg.data ∈ D := fun h => ih p (by rwa [h] at hp)
      have net : ∀ fl x, Flood.step n (σ k).net fl = some x → s'.net = x → (∀ q, fl = .inject q → q.msg.data ∈ D) →
          (∀ w b, fl = .publish w b → n.encode b ∈ D) → p.msg.data ∈ D := by
        intro fl x hst hs' hq hb
        rw [hs'] at hp
        cases Flood.ftr_of_step _ _ _ hst with
        | again => exact ih p hp
        | publish w b m hm hw hs =>
          rcases hp with hp | hp
          · rcases List.mem_append.1 hp with hp | hp
            · exact ih p (Or.inl hp)
            · have := (Flood.mem_pass hp).2.2.1
              rw [this, hm]; exact hb w b rfl
          · exact ih p (Or.inr hp)
        | lost i q hq hc => exact ih p (hp.imp_left List.mem_of_mem_eraseIdx)
        | full i q hq => exact ih p (hp.imp_left List.mem_of_mem_eraseIdx)
        | forget => exact ih p hp
        | arrive i q hq hc hs =>
          rcases hp with hp | hp
          · exact ih p (Or.inl (List.mem_of_mem_eraseIdx hp))
          · rcases List.mem_append.1 hp with hp | hp
            · exact ih p (Or.inr hp)
            · simp only [List.mem_singleton] at hp; subst hp; exact ih p (Or.inl (List.mem_of_getElem? hq))
        | judge i lib answer q r ws hq' hr hw =>
          rcases hp with hp | hp
          · rcases List.mem_append.1 hp with hp | hp
            · exact ih p (Or.inl hp)
            · rw [(Flood.mem_pass hp).2.2.1]; exact ih q (Or.inr (List.mem_of_getElem? hq'))
          · exact ih p (Or.inr (List.mem_of_mem_eraseIdx hp))
        | inject q h1 h2 h3 =>
          rcases hp with hp | hp
          · rcases List.mem_append.1 hp with hp | hp
            · exact ih p (Or.inl hp)
            · simp only [List.mem_singleton] at hp; subst hp; exact hq p rfl
          · exact ih p (Or.inr hp)
      cases htr with
      | node => exact keep rfl
      | submit => exact keep rfl
      | publish w b x hb hst => exact net _ x hst rfl (fun _ h => by cases h) (fun w' b' h => by cases h; exact hDk.2 w b rfl)
      | arrive i x hst => exact net _ x hst rfl (fun _ h => by cases h) (fun w' b' h => by cases h)
      | forget w id x hj hst => exact net _ x hst rfl (fun _ h => by cases h) (fun w' b' h => by cases h)
      | inject q x hst => exact net _ x hst rfl (fun q' h => by cases h; exact hDk.1 q rfl) (fun w' b' h => by cases h)
      | answered i lib q c e x hi hc he hst => exact net _ x hst rfl (fun _ h => by cases h) (fun w' b' h => by cases h)
      | early i lib q x hi hc hh hst => exact net _ x hst rfl (fun _ h => by cases h) (fun w' b' h => by cases h)
  have one : ∀ d : Bytes, ∃ K, ∀ k, K ≤ k → ∀ i lib p, ev k = .submit i lib → (σ k).net.judging[i]? = some p → p.dest = v → p.msg.data ≠ d := by
    intro d
    by_cases h : ∃ k i lib p, K0 ≤ k ∧ ev k = .submit i lib ∧ (σ k).net.judging[i]? = some p ∧ p.dest = v ∧ p.msg.data = d
    · obtain ⟨k, i, lib, p, h0, h1, h2, h3, h4⟩ := h
      refine ⟨k + 1, fun j hj i' lib' q g1 g2 g3 g4 => ?_⟩
      have hsame : ∀ s, callOf s q = callOf s p := fun s => by simp only [callOf, h3, h4, g3, g4]
      have hrec : ∃ c, callOf (σ (k + 1)) p = some c := by
        have htr := tr hx k
        rw [h1] at htr
        generalize σ (k + 1) = s' at htr
        cases htr with
        | submit _ _ p' b bs kk x hi hc hh hk hst =>
          rw [h2] at hi; cases hi
          rw [← Option.isSome_iff_exists, callOf, List.find?_isSome]
          exact ⟨_, List.mem_append_right _ (List.mem_singleton_self _), by simp⟩
      obtain ⟨c, hc⟩ := hrec
      have hc' := call_mono hx hj (fun e he => Or.inr (hK0 e (by omega))) hc
      have htr := tr hx j
      rw [g1] at htr
      generalize σ (j + 1) = s' at htr
      cases htr with
      | submit _ _ p' b bs kk x hi hcc hh hk hst =>
        rw [g2] at hi; cases hi
        rw [hsame, hc'] at hcc
        cases hcc
    · exact ⟨K0, fun k hk i lib p g1 g2 g3 g4 => h ⟨k, i, lib, p, hk, g1, g2, g3, g4⟩⟩
  have all : ∀ E : List Bytes, ∃ K, ∀ k, K ≤ k → ∀ i lib p, ev k = .submit i lib → (σ k).net.judging[i]? = some p → p.dest = v →
      p.msg.data ∉ E := by
    intro E
    induction E with
    | nil => exact ⟨0, fun k _ i lib p _ _ _ h => by cases h⟩
    | cons d E ih =>
      obtain ⟨K, hK⟩ := ih
      obtain ⟨M, hM⟩ := one d
      refine ⟨max K M, fun k hk i lib p h1 h2 h3 h4 => ?_⟩
      rcases List.mem_cons.1 h4 with h | h
      · exact hM k (by omega) i lib p h1 h2 h3 h
      · exact hK k (by omega) i lib p h1 h2 h3 h
  obtain ⟨K, hK⟩ := all D
  exact ⟨K, fun k hk i lib p h1 h2 h3 => hK k hk i lib p h1 h2 h3 (cont k p (Or.inr (List.mem_of_getElem? h2)))⟩

/-- From some time on, nothing comes in at a node. -/
theorem quiet_end (hfin : Finite n σ ev) (hfair : Fair n o σ ev) (v : Bytes) (hv : n.honest v = true) (M : Nat) :
    ∃ K, M ≤ K ∧ Link.FairQuiet o (fun k => (σ (K + k)).node v) (fun k => here n v (σ (K + k)) (ev (K + k))) := by
  obtain ⟨K1, h1⟩ := calls_end hx hfin v
  obtain ⟨K2, h2⟩ := hfin.quiet v hv
  obtain ⟨ids, hids⟩ := hfin.accepted v hv
  have hnode : ∀ k l, ev k = .node v l → here n v (σ k) (ev k) = l := fun k l h => by rw [h]; simp [here]
  have hcase : ∀ k, max K1 K2 ≤ k → here n v (σ k) (ev k) = .act (.tick 0) ∨ ∃ l, ev k = .node v l ∧ here n v (σ k) (ev k) = l := by
    intro k hk
    cases hev : ev k with
    | node w l =>
      by_cases hw : w = v
      · subst hw; exact Or.inr ⟨l, rfl, by simp [here]⟩
      · left; simp [here, hw]
    | submit i lib =>
      left
      simp only [here]
      cases hj : (σ k).net.judging[i]? with
      | none => rfl
      | some p => simp only [if_neg (h1 k (by omega) i lib p hev hj)]
    | _ => exact Or.inl rfl
  refine ⟨max M (max K1 K2), by omega, ?_⟩
  generalize hKdef : max M (max K1 K2) = K
  have hK : max K1 K2 ≤ K := by omega
  refine ⟨fun k => ?_, fun k => ?_, ⟨ids, fun k id prev h hev => ?_⟩, fun T => ?_, fun k hen => ?_, fun x k hen => ?_⟩
  · exact node_step v (tr hx (K + k))
  · rcases hcase (K + k) (by omega) with h | ⟨l, hl, h⟩
    · rw [h]; trivial
    · rw [h]; exact h2 (K + k) (by omega) l hl
  · rcases hcase (K + k) (by omega) with h | ⟨l, hl, h⟩
    · rw [h] at hev; cases hev
    · rw [h] at hev; subst hev; exact hids _ _ _ _ hl
  · obtain ⟨j, hj, h⟩ := hfair.time v hv T K
    exact ⟨j - K, by rw [show K + (j - K) = j from by omega]; exact h⟩
  · obtain ⟨j, i, hj, he⟩ := hfair.announced v hv (K + k) (fun j hj => by
      obtain ⟨x, ⟨i, rfl⟩, h⟩ := hen (j - K) (by omega)
      rw [show K + (j - K) = j from by omega] at h
      exact ⟨i, h⟩)
    refine ⟨j - K, by omega, i, ?_⟩
    show here n v (σ (K + (j - K))) (ev (K + (j - K))) = _
    rw [show K + (j - K) = j from by omega]
    exact hnode j _ he
  · obtain ⟨j, l, hj, hl, he⟩ := hfair.kinds v hv x (K + k) (fun j hj => by
      obtain ⟨y, ⟨l, rfl, hl⟩, h⟩ := hen (j - K) (by omega)
      rw [show K + (j - K) = j from by omega] at h
      exact ⟨l, hl, h⟩)
    refine ⟨j - K, by omega, l, ?_, hl⟩
    show here n v (σ (K + (j - K))) (ev (K + (j - K))) = _
    rw [show K + (j - K) = j from by omega]
    exact hnode j _ he

/-! ## The blocks of a chain -/

section chain
variable {c : Nat → RawBlock} {hd : Nat → Header} {len : Nat} (hch : Chain n c hd len)
include hch

omit hx in
theorem toBlk_some (i : Nat) (hi : i ≤ len) : ∃ b, (c i).toBlk = some b := by
  simp only [RawBlock.toBlk, (hch.complete i hi).2.1]; exact ⟨_, rfl⟩

omit hx in
theorem toBlk_eq (i : Nat) (hi : i ≤ len) (b : Blk) (hb : (c i).toBlk = some b) :
    b.id = str (c i).id ∧ b.previous = str (hd i).previous ∧ b.height = (hd i).height := by
  simp only [RawBlock.toBlk, (hch.complete i hi).2.1, Option.map_some, Option.some.injEq] at hb
  subst hb
  exact ⟨rfl, rfl, rfl⟩

omit hx in
theorem heights (i : Nat) (hi : i ≤ len) : (hd i).height.toNat = (hd 0).height.toNat + i := by
  induction i with
  | zero => rfl
  | succ i ih => rw [← (hch.linked i (by omega)).2, ih (by omega)]; omega

variable (ho : Link.GoodOpts o) (hready : ∀ v, n.honest v = true → Ready n o c hd len σ ev v)
include ho hready

omit hch in
theorem safe (v : Bytes) (hv : n.honest v = true) (k : Nat) : Link.Safe (Blocks c len) ((σ k).node v) :=
  (Link.reach_safe ho (reach hx _ v hv (hready v hv).fit k) ((hready v hv).clean k)).1

/-- What gossip has brought to a node is on its chain. -/
theorem on_chain (w : Bytes) (i : Nat) (hi : i ≤ len) (k : Nat) (h : Spec.Flood.Has w (c i) (σ k).net) :
    Link.Has ((σ k).node w) (str (c i).id) := by
  rcases h with h | h
  · exact ((winv hx k).published w (c i) h).2
  · obtain ⟨hw, b, r, hb, h1, h2⟩ := (winv hx k).applied w (c i) none h
    rw [← (toBlk_eq hch i hi b hb).1]
    have h2 : Obs.returned r none ∈ ((σ k).node w).app.log := by
      rcases h2 with h2 | h2
      · exact h2
      · obtain ⟨_, y, _, hy⟩ := (sound hx w hw k).2.good _ h2
        cases hy
    rcases (sound hx w hw k).2.good _ h2 with h3 | h3
    · exact ((safe hx ho hready w hw k).ans b r none ⟨i, hi, hb⟩ h1 h3).2
    · cases h3

variable (hpat : ∀ v, n.honest v = true → Patient n c len σ v)
include hpat

/-- A validation of one of the blocks that has called the applicator finds success. -/
theorem answers_good (k : Nat) (p : Packet) (x : Call) (i : Nat) (hi : i ≤ len) (hc : callOf (σ k) p = some x) (hd' : p.msg.data = n.encode (c i))
    (e : Option Err) (he : resultOf ((σ k).node p.dest).app.log x.number = some e) : x.lib.toNat ≤ (hd i).height.toNat ∧ e = none := by
  obtain ⟨hm, h1, h2⟩ := callOf_mem hc
  obtain ⟨hv, b, y, hb, hy, hcall, hlib⟩ := (winv hx k).calls x hm
  rw [h2, hd', hch.decoded i hi] at hb
  cases hb
  refine ⟨hlib _ (hch.complete i hi).2.1, ?_⟩
  rw [h1] at hv hcall
  rcases result_mem he with h | h
  · rcases (sound hx _ hv k).2.good _ h with h3 | h3
    · exact ((safe hx ho hready _ hv k).ans y _ e ⟨i, hi, hy⟩ hcall h3).1
    · subst h3
      exact absurd h (hpat _ hv k x i hm h1 hi (by rw [h2, hd']))
  · exact absurd h (((hready _ hv).clean k).refused y _ e ⟨i, hi, hy⟩ hcall)

theorem welcome (i : Nat) (hi : i ≤ len) (k : Nat) : Spec.Flood.Welcome n (hd i) (n.encode (c i)) (σ k).net (wire (σ k) (ev k)) := by
  have htr := tr hx k
  cases hev : ev k with
  | finish i' lib =>
    simp only [wire]
    cases hj : (σ k).net.judging[i']? with
    | none => trivial
    | some p =>
      have hv := (winv hx k).dest p (List.mem_of_getElem? hj)
      simp only
      cases hc : callOf (σ k) p with
      | some x =>
        simp only
        cases he : resultOf ((σ k).node p.dest).app.log x.number with
        | none => trivial
        | some e =>
          intro q hq hqd
          rw [hj] at hq; cases hq
          exact answers_good hx hch ho hready hpat k p x i hi hc hqd e he
      | none =>
        intro q hq hqd
        rw [hj] at hq; cases hq
        exact ⟨(hready _ hv).low k i' lib p i hev hj rfl hi hqd, rfl⟩
  | arrive i' => exact fun p hp hpd hv => (hready _ hv).roomy k i' p i hev hp rfl hi hpd
  | _ => trivial

omit hx hch ho hready hpat in
theorem all_le {P : Nat → Nat → Prop} (m : Nat) (h : ∀ i, i ≤ m → ∃ N, ∀ j, N ≤ j → P i j) : ∃ N, ∀ i, i ≤ m → ∀ j, N ≤ j → P i j := by
  induction m with
  | zero =>
    obtain ⟨N, hN⟩ := h 0 (Nat.le_refl _)
    exact ⟨N, fun i hi j hj => by obtain rfl : i = 0 := by omega
                                  exact hN j hj⟩
  | succ m ih =>
    obtain ⟨N, hN⟩ := ih fun i hi => h i (by omega)
    obtain ⟨M, hM⟩ := h (m + 1) (Nat.le_refl _)
    refine ⟨max N M, fun i hi j hj => ?_⟩
    by_cases h1 : i = m + 1
    · subst h1; exact hM j (by omega)
    · exact hN i (by omega) j (by omega)

variable (hfair : Fair n o σ ev) (hfin : Finite n σ ev)
include hfair hfin

omit hpat in
/-- Once the blocks before it are on the chain, a call for a block returns. -/
theorem call_returns (w : Bytes) (hw : n.honest w = true) (i : Nat) (hi : i ≤ len)
    (hbefore : ∀ i', i' < i → ∃ N, ∀ j, N ≤ j → Link.Has ((σ j).node w) (str (c i').id)) (b : Blk) (hb : (c i).toBlk = some b) (r k : Nat)
    (hcall : Obs.call r b ∈ ((σ k).node w).app.log) : ∃ N, ∀ j, N ≤ j → ∃ e, Obs.returned r e ∈ ((σ j).node w).app.log := by
  let S : Blk → Prop := fun y => ∃ i', i' ≤ i ∧ (c i').toBlk = some y ∧ ∃ k, App.Known ((σ k).node w).app.log y
  have hSB : ∀ y, S y → Blocks c len y := fun y ⟨i', h1, h2, _⟩ => ⟨i', by omega, h2⟩
  have hR := hready w hw
  have hfit : ∀ k, Link.Fit S o ((σ k).node w) (here n w (σ k) (ev k)) :=
    fun k => ⟨fun y hy => (hR.fit k).1 y (hSB y hy), fun y hy => (hR.fit k).2 y (hSB y hy)⟩
  have hknown : ∀ {k j y}, k ≤ j → App.Known ((σ k).node w).app.log y → App.Known ((σ j).node w).app.log y :=
    fun hkj ⟨r, h⟩ => ⟨r, log_mono hx w hw hkj h⟩
  have hclean : ∀ k, Link.Clean S ((σ k).node w).app.log := by
    intro k
    have h := hR.clean k
    refine ⟨fun y hy => h.one y (hSB y hy), fun y r e hy => h.refused y r e (hSB y hy), fun y r x hy => h.admitted y r x (hSB y hy),
      fun y e hy => h.willing y e (hSB y hy), fun y hy => h.patient y (hSB y hy), fun y hy => ?_⟩
    rcases h.parents y (hSB y hy) with ⟨q, ⟨iq, hiq, hq⟩, h1, h2⟩ | h1
    · by_cases hk : ∃ k, App.Known ((σ k).node w).app.log q
      · left
        obtain ⟨i', hi', hy', _⟩ := hy
        refine ⟨q, ⟨iq, ?_, hq, hk⟩, h1, h2⟩
        have e1 := (toBlk_eq hch iq hiq q hq).2.2
        have e2 := (toBlk_eq hch i' (by omega) y hy').2.2
        rw [e1, e2, heights hch iq hiq, heights hch i' (by omega)] at h2
        omega
      · right
        intro d e hid hst
        have hkd : App.Known ((σ k).node w).app.log d := (sound hx w hw k).2.good _ hst
        have := h.one q ⟨iq, hiq, hq⟩ d hkd (hid.trans h1.symm)
        subst this
        exact absurd ⟨k, hkd⟩ hk
    · exact Or.inr h1
  obtain ⟨N1, hN1⟩ := all_le (P := fun i' j => (i' < i → Link.Has ((σ j).node w) (str (c i').id)) ∧
      ∀ y, (c i').toBlk = some y → (∃ k, App.Known ((σ k).node w).app.log y) → App.Known ((σ j).node w).app.log y) i (by
    intro i' hi'
    have h2 : ∃ N, ∀ j, N ≤ j → ∀ y, (c i').toBlk = some y → (∃ k, App.Known ((σ k).node w).app.log y) → App.Known ((σ j).node w).app.log y := by
      obtain ⟨y, hy⟩ := toBlk_some hch i' (by omega)
      by_cases hk : ∃ k, App.Known ((σ k).node w).app.log y
      · obtain ⟨k, hk⟩ := hk
        refine ⟨k, fun j hj y' hy' _ => ?_⟩
        rw [hy] at hy'; cases hy'
        exact hknown hj hk
      · refine ⟨0, fun j _ y' hy' h => ?_⟩
        rw [hy] at hy'; cases hy'
        exact absurd h hk
    obtain ⟨N2, hN2⟩ := h2
    by_cases hlt : i' < i
    · obtain ⟨N, hN⟩ := hbefore i' hlt
      exact ⟨max N N2, fun j hj => ⟨fun _ => hN j (by omega), hN2 j (by omega)⟩⟩
    · exact ⟨N2, fun j hj => ⟨fun h => absurd h hlt, hN2 j hj⟩⟩)
  obtain ⟨K, hKk, hq⟩ := quiet_end hx hfin hfair w hw (max k N1)
  have hS : ∀ j, Link.HandedOver S ((σ (K + j)).node w) := by
    intro j
    refine ⟨hclean _, fun y ⟨i', h1, h2, h3⟩ => (hN1 i' h1 (K + j) (by omega)).2 y h2 h3, fun y ⟨i', h1, h2, _⟩ => Or.inr ?_⟩
    obtain ⟨_, e2, e3⟩ := toBlk_eq hch i' (by omega) y h2
    rw [e2, e3]
    cases i' with
    | zero =>
      obtain ⟨h, hh, hle⟩ := hR.root
      exact ⟨h, acc_mono hx w (Nat.zero_le _) hh, hle⟩
    | succ i' =>
      obtain ⟨g1, g2⟩ := hch.linked i' (by omega)
      obtain ⟨h, hh⟩ := (hN1 i' (by omega) (K + j) (by omega)).1 (by omega)
      rw [← g1]
      refine ⟨h, hh, ?_⟩
      obtain ⟨y', hy'⟩ := toBlk_some hch i' (by omega)
      obtain ⟨f1, _, f3⟩ := toBlk_eq hch i' (by omega) y' hy'
      have := ((hR.fit (K + j)).1 y' ⟨i', by omega, hy'⟩ h (by rw [f1]; exact hh)).1
      rw [this, f3]
      omega
  obtain ⟨N, hN⟩ := C125_in_the_end_partial (S := S) ho (reach hx _ w hw hfit K) (hR.awake K) hq (fun j => hfit (K + j)) ⟨0, fun j _ => hS j⟩
    (fun j => hR.room (K + j))
  refine ⟨K + N, fun j hj => ?_⟩
  have := (hN (j - K) (by omega)).2 b r ⟨i, Nat.le_refl _, hb, k, r, hcall⟩
  simp only [show K + (j - K) = j from by omega] at this
  rcases this (log_mono hx w hw (by omega) hcall) with h | h <;> exact ⟨_, h⟩

omit hx hch ho hready hpat hfair hfin in
theorem finish_some {s : State} {i : Nat} {p : Packet} (hj : s.net.judging[i]? = some p) (lib : UInt64)
    (h : (∃ x e, callOf s p = some x ∧ resultOf (s.node p.dest).app.log x.number = some e) ∨ (callOf s p = none ∧ handed n p lib = [])) :
    (step n o s (.finish i lib)).isSome = true := by
  rcases h with ⟨x, e, h1, h2⟩ | ⟨h1, h2⟩
  · simp [step, hj, h1, h2, Flood.step]
  · simp [step, hj, h1, h2, Flood.step]

omit hx hch ho hready hpat hfair hfin in
theorem finish_judged {s s' : State} {i : Nat} {lib : UInt64} {p : Packet} (hj : s.net.judging[i]? = some p) (h : Tr n o s (.finish i lib) s') :
    Spec.Flood.Judged p s.net (wire s (.finish i lib)) := by
  cases h with
  | answered _ _ q x e y hi hc he hst => rw [hj] at hi; cases hi; simp only [wire, hj, hc, he]; exact hj
  | early _ _ q y hi hc hh hst => rw [hj] at hi; cases hi; simp only [wire, hj, hc]; exact hj

omit hpat in
/-- A validation of a block ends once the blocks before it are on the chain. -/
theorem validated (i : Nat) (hi : i ≤ len) (p : Packet) (hpd : p.msg.data = n.encode (c i)) (hw : n.honest p.dest = true)
    (hbefore : ∀ i', i' < i → ∃ N, ∀ j, N ≤ j → Link.Has ((σ j).node p.dest) (str (c i').id)) (k : Nat)
    (hstay : ∀ j, k ≤ j → p ∈ (σ j).net.judging) : ∃ j, k ≤ j ∧ Spec.Flood.Judged p (σ j).net (wire (σ j) (ev j)) := by
  obtain ⟨y, hy⟩ := toBlk_some hch i hi
  obtain ⟨g1, g2, g3⟩ := hch.complete i hi
  by_contra hno
  have hnf : ∀ j i' lib, k ≤ j → (σ j).net.judging[i']? = some p → ev j ≠ .finish i' lib := by
    intro j i' lib hj hji hev
    have htr := tr hx j
    rw [hev] at htr
    refine hno ⟨j, hj, ?_⟩
    rw [hev]
    exact finish_judged hji htr
  have hcalled : ∃ j x, k ≤ j ∧ callOf (σ j) p = some x := by
    by_contra hnc
    have hnone : ∀ j, k ≤ j → callOf (σ j) p = none := by
      intro j hj
      cases h : callOf (σ j) p with
      | none => rfl
      | some x => exact absurd ⟨j, x, hj, h⟩ hnc
    obtain ⟨j, i', lib, hj, hji, hev⟩ := hfair.validation p k (by
      intro j hj
      obtain ⟨i', hi'⟩ := List.mem_iff_getElem?.1 (hstay j hj)
      refine ⟨i', 0, hi', ?_⟩
      by_cases hs : p.msg.sender = p.dest
      · right
        refine finish_some hi' 0 (Or.inr ⟨hnone j hj, ?_⟩)
        have := hch.decoded i hi
        rw [← hpd] at this
        simp [handed, GossipValidate.applyBlock, this, hs]
      · left
        have hh := handed_good (n := n) p 0 (c i) (hd i) (by rw [hpd]; exact hch.decoded i hi) hs g1 g2 g3 (Nat.zero_le _)
        simp [step, hi', hnone j hj, hh, hy, Link.step, App.step])
    rcases hev with hev | hev
    · have htr := tr hx j
      have h0 := hnone (j + 1) (by omega)
      rw [hev] at htr
      generalize σ (j + 1) = s' at htr h0
      cases htr with
      | submit _ _ q b bs kk x hq hc hh hk hst =>
        rw [hji] at hq; cases hq
        rw [callOf, List.find?_eq_none] at h0
        exact h0 _ (List.mem_append_right _ (List.mem_singleton_self _)) (by simp)
    · exact hnf j i' lib hj hji hev
  obtain ⟨j1, x, hj1, hc⟩ := hcalled
  obtain ⟨hm, hn1, hn2⟩ := callOf_mem hc
  obtain ⟨_, b, z, hb, hz, hcall, _⟩ := (winv hx j1).calls x hm
  rw [hn2, hpd, hch.decoded i hi] at hb
  cases hb
  rw [hn1] at hcall
  obtain ⟨N, hN⟩ := call_returns hx hch ho hready hfair hfin p.dest hw i hi hbefore z hz x.number j1 hcall
  obtain ⟨j, i', lib, hj, hji, hev⟩ := hfair.validation p (max N j1) (by
    intro j hj
    obtain ⟨i', hi'⟩ := List.mem_iff_getElem?.1 (hstay j (by omega))
    obtain ⟨e, he⟩ := hN j (by omega)
    obtain ⟨e', he'⟩ := result_some he
    exact ⟨i', 0, hi', Or.inr (finish_some hi' 0 (Or.inl ⟨x, e', call_mono hx (by omega) (fun e he => Or.inl (hstay e (by omega))) hc, he'⟩))⟩)
  rcases hev with hev | hev
  · have htr := tr hx j
    have h0 := call_mono hx (show j1 ≤ j by omega) (fun e he => Or.inl (hstay e (by omega))) hc
    rw [hev] at htr
    generalize σ (j + 1) = s' at htr
    cases htr with
    | submit _ _ q b bs kk x' hq hcc hh hk hst =>
      rw [hji] at hq; cases hq
      rw [h0] at hcc; cases hcc
  · exact hnf j i' lib (by omega) hji hev

end chain
end exec
end Whole

/-! ## C144 -/

variable {n : Net} {o : AppOpts}

/-- C144, what holds: a chain of blocks, each published by some node that has accepted it, is in the end on the chains of all nodes that are
connected to the publishers by way of nodes that run this code. -/
theorem C144_everywhere_partial (σ : Nat → State) (ev : Nat → Label) (hx : Exec n o σ ev) (hfair : Fair n o σ ev) (hfin : Finite n σ ev)
    (ho : Link.GoodOpts o) (c : Nat → RawBlock) (hd : Nat → Header) (len : Nat) (hch : Chain n c hd len)
    (hready : ∀ v, n.honest v = true → Ready n o c hd len σ ev v) (hpat : ∀ v, n.honest v = true → Patient n c len σ v) (v : Nat → Bytes)
    (hpath : ∀ i, i < len → ∀ x, Spec.Flood.Path n (v (i + 1)) x → Spec.Flood.Path n (v i) x) (k : Nat)
    (hv : ∀ i, i ≤ len → Flood.Obs.published (v i) (c i) ∈ (σ k).net.log) (i : Nat) (hi : i ≤ len) (w : Bytes) (hw : Spec.Flood.Path n (v i) w) :
    ∃ N, ∀ j, N ≤ j → Link.Has ((σ j).node w) (str (c i).id) := by
  induction i using Nat.strong_induction_on generalizing w with
  | _ i ih =>
    have hdown : ∀ i' j, i' + j = i → ∀ x, Spec.Flood.Path n (v i) x → Spec.Flood.Path n (v i') x := by
      intro i' j
      induction j generalizing i' with
      | zero => intro h x hx; rw [show i' = i from by omega]; exact hx
      | succ j ihj => intro h x hx; exact hpath i' (by omega) x (ihj (i' + 1) (by omega) x hx)
    obtain ⟨h1, h2, h3⟩ := hch.complete i hi
    obtain ⟨j, hj, hhas⟩ := Flood.reaches (fun k => (σ k).net) (fun k => wire (σ k) (ev k)) (loose hx) (by
        intro p k hk
        obtain ⟨j, i, hj, he, hp⟩ := hfair.delivery p k hk
        exact ⟨j, hj, by simp only [he, wire]; exact hp⟩)
      (c i) (hd i) h1 h2 h3 (hch.decoded i hi) (hch.encoded i hi) (hch.hashed i hi) (welcome hx hch ho hready hpat i hi) (v i) (by
        intro p k' hp hpd hstay
        refine validated hx hch ho hready hfair hfin i hi p hpd ((winv hx k').dest p (hstay k' (Nat.le_refl _))) (fun i' hi' => ?_) k' hstay
        exact ih i' hi' (by omega) p.dest (hdown i' (i - i') (by omega) _ hp))
      k w (hv i hi) hw
    obtain ⟨h, hh⟩ := on_chain hx hch ho hready w i hi j hhas
    exact ⟨j, fun j' hj' => ⟨h, acc_mono hx w hj' hh⟩⟩

end KP2P

import Verif.Spec.Flood
import Verif.Props.Node
/-!
# How a block spreads in a network: lemmas for C139, C142 and C144
-/

namespace KP2P
namespace Flood
open KP2P.Spec.Flood
open KP2P.GossipValidate (Msg validateBlock)

variable {n : Net}

theorem id_iff (n : Net) (a b : Bytes) : msgID n a = msgID n b ↔ n.sha a = n.sha b :=
  C55_id_iff n.sha (fun _ => []) _ _ (Or.inl rfl) (Or.inl rfl)

/-- The steps. -/
inductive FTr (n : Net) (s : State) : Label → State → Prop where
  | again (v : Bytes) (b : RawBlock) (hv : n.honest v = true) (hs : (v, msgID n (n.encode b)) ∈ s.seen) :
    FTr n s (.publish v b) { s with log := .published v b :: s.log }
  | publish (v : Bytes) (b : RawBlock) (m : Msg) (hm : m = { data := n.encode b, sender := v, receivedFrom := v, key := v })
      (hv : n.honest v = true) (hs : (v, msgID n (n.encode b)) ∉ s.seen) :
    FTr n s (.publish v b) { s with
      seen := (v, msgID n (n.encode b)) :: s.seen
      flight := s.flight ++ pass v m (n.adj v)
      log := (n.adj v).map (.sent v · (n.encode b)) ++ .published v b :: s.log }
  | lost (i : Nat) (p : Packet) (hi : s.flight[i]? = some p) 
      (h : n.honest p.dest = false ∨ p.msg.sender = p.dest ∨ (p.dest, msgID n p.msg.data) ∈ s.seen) :
    FTr n s (.arrive i) { s with flight := s.flight.eraseIdx i }
  | full (i : Nat) (p : Packet) (hi : s.flight[i]? = some p) (hd : n.honest p.dest = true) (ho : p.msg.sender ≠ p.dest)
      (hs : (p.dest, msgID n p.msg.data) ∉ s.seen) (hf : ¬ Roomy n s p.dest) :
    FTr n s (.arrive i) { s with
      seen := (p.dest, msgID n p.msg.data) :: s.seen
      flight := s.flight.eraseIdx i }
  | arrive (i : Nat) (p : Packet) (hi : s.flight[i]? = some p) (hd : n.honest p.dest = true) (ho : p.msg.sender ≠ p.dest)
      (hs : (p.dest, msgID n p.msg.data) ∉ s.seen) (hf : Roomy n s p.dest) :
    FTr n s (.arrive i) { s with
      seen := (p.dest, msgID n p.msg.data) :: s.seen
      flight := s.flight.eraseIdx i
      judging := s.judging ++ [p] }
  | judge (i : Nat) (lib : UInt64) (answer : Option Err) (p : Packet) (r : GossipValidate.Result RawBlock) (ws : List Bytes)
      (hi : s.judging[i]? = some p)
      (hr : r = validateBlock { me := p.dest, decode := n.decode, lib := lib, apply := fun _ => answer, author := id } p.msg)
      (hw : ws = if r.accept then (n.adj p.dest).filter (fun w => w ≠ p.source ∧ w ≠ p.msg.sender) else []) :
    FTr n s (.judge i lib answer) { s with
      judging := s.judging.eraseIdx i
      flight := s.flight ++ pass p.dest p.msg ws
      log := ws.map (.sent p.dest · p.msg.data) ++ (r.report.toList.map fun x => .reported p.dest x.1 x.2) ++
        .judged p.dest p.msg.data r.accept :: (r.applied.map (.applied p.dest · answer) ++ s.log) }
  | inject (p : Packet) (h1 : n.honest p.source = false) (h3 : p.msg.receivedFrom = p.source)
      (h2 : n.honest p.msg.sender = false ∨ ∃ b, Obs.published p.msg.sender b ∈ s.log ∧ n.encode b = p.msg.data) :
    FTr n s (.inject p) { s with flight := s.flight ++ [p], log := .sent p.source p.dest p.msg.data :: s.log }
  | forget (v id : Bytes) : FTr n s (.forget v id) { s with seen := s.seen.filter (· ≠ (v, id)) }

theorem authentic_published {log : List Flood.Obs} {m : Msg} (h : authentic n log m = true) :
    ∃ b, Obs.published m.sender b ∈ log ∧ n.encode b = m.data := by
  simp only [authentic, Bool.and_eq_true, List.any_eq_true] at h
  obtain ⟨_, o, ho, h⟩ := h
  cases o with
  | published v b =>
    simp only [decide_eq_true_eq] at h
    exact ⟨b, by rw [← h.1]; exact ho, h.2⟩
  | _ => cases h

theorem ftr_of_step (s s' : State) (l : Label) (h : step n s l = some s') : FTr n s l s' := by
  cases l with
  | publish v b =>
    simp only [step] at h
    split at h
    · cases h
    rename_i hv
    have hv : n.honest v = true := by simpa using hv
    split at h
    · rename_i hs; cases h; exact .again v b hv hs
    · rename_i hs; cases h; exact .publish v b _ rfl hv hs
  | arrive i =>
    simp only [step] at h
    split at h
    · cases h
    rename_i p hi
    split at h
    · rename_i hd; cases h; exact .lost i p hi (Or.inl (by simpa using hd))
    rename_i hd
    have hd : n.honest p.dest = true := by simpa using hd
    split at h
    · rename_i ho; cases h; exact .lost i p hi (Or.inr (Or.inl ho))
    rename_i ho
    split at h
    · rename_i hs; cases h; exact .lost i p hi (Or.inr (Or.inr hs))
    rename_i hs
    split at h
    · rename_i hf; cases h; exact .full i p hi hd ho hs (Nat.not_lt.2 hf)
    · rename_i hf; cases h; exact .arrive i p hi hd ho hs (Nat.lt_of_not_le hf)
  | judge i lib answer =>
    simp only [step] at h
    split at h
    · cases h
    rename_i p hi
    cases h
    exact .judge i lib answer p _ _ hi rfl rfl
  | inject p =>
    simp only [step] at h
    split at h
    · cases h
    rename_i hc
    simp only [Bool.or_eq_true, decide_eq_true_eq, not_or, Bool.not_eq_true, not_not] at hc
    cases h
    refine .inject p hc.1.1 hc.1.2 ?_
    cases hs : n.honest p.msg.sender with
    | false => exact Or.inl rfl
    | true =>
      have ha := hc.2
      rw [hs] at ha
      exact Or.inr (authentic_published (by simpa using ha))
  | forget v id =>
    simp only [step] at h
    split at h
    · cases h; exact .forget v id
    · cases h

/-- A step, or nothing happens (the label is then one that nobody waits for). -/
def Step (n : Net) (s : State) (l : Label) (s' : State) : Prop := FTr n s l s' ∨ (s' = s ∧ ∃ v b, l = .publish v b)

/-- An infinite execution with pauses. -/
def Loose (n : Net) (σ : Nat → State) (ev : Nat → Label) : Prop := σ 0 = init ∧ ∀ k, Step n (σ k) (ev k) (σ (k + 1))

theorem loose_of {σ : Nat → State} {ev : Nat → Label} (h : Exec n σ ev) : Loose n σ ev :=
  ⟨h.1, fun k => Or.inl (ftr_of_step _ _ _ (h.2 k))⟩

theorem mem_pass {v : Bytes} {m : Msg} {ws : List Bytes} {q : Packet} (h : q ∈ pass v m ws) :
    q.source = v ∧ q.dest ∈ ws ∧ q.msg.data = m.data ∧ q.msg.sender = m.sender ∧ q.msg.receivedFrom = v := by
  simp only [pass, List.mem_map] at h
  obtain ⟨w, hw, rfl⟩ := h
  exact ⟨rfl, hw, rfl, rfl, rfl⟩

theorem erase_or {α : Type} {l : List α} {i : Nat} {x y : α} (hx : x ∈ l) (hi : l[i]? = some y) : x ∈ l.eraseIdx i ∨ x = y := by
  by_cases h : x = y
  · exact Or.inr h
  · left
    rw [List.mem_eraseIdx_iff_getElem?]
    obtain ⟨j, hj⟩ := List.mem_iff_getElem?.1 hx
    exact ⟨j, fun hh => h (by rw [hh] at hj; rw [hj] at hi; exact Option.some.inj hi), hj⟩


/-- A welcome block is accepted. -/
theorem welcome_accepted (env : GossipValidate.Env RawBlock) (m : Msg) (b : RawBlock) (h : Header) (prev : Bytes) (i : Bytes)
    (hd : env.decode m.data = .ok b) (hi : b.id = some i) (hh : b.header = some h) (hp : h.previous = some prev)
    (hl : env.lib.toNat ≤ h.height.toNat) (ha : env.apply b = none) :
    (validateBlock env m).accept = true ∧ (m.sender ≠ env.me → (validateBlock env m).applied = [b]) := by
  have hnl : ¬ h.height < env.lib := by rw [UInt64.lt_iff_toNat_lt]; omega
  by_cases hs : m.sender = env.me
  · simp [validateBlock, GossipValidate.applyBlock, hd, hs]
  · simp [validateBlock, GossipValidate.applyBlock, hd, hs, hi, hh, hp, hnl, ha]

/-- `p` carries this contents to `x`. -/
def For (D x : Bytes) (p : Packet) : Bool := decide (p.dest = x ∧ p.msg.data = D)

theorem for_iff {D x : Bytes} {p : Packet} : For D x p = true ↔ p.dest = x ∧ p.msg.data = D := by simp [For]

theorem count_erase {l : List Packet} {i : Nat} {p : Packet} (f : Packet → Bool) (h : l[i]? = some p) :
    l.countP f = (l.eraseIdx i).countP f + if f p then 1 else 0 := by
  obtain ⟨hi, rfl⟩ := List.getElem?_eq_some_iff.1 h
  rw [← List.Perm.countP_eq f (List.getElem_cons_eraseIdx_perm hi), List.countP_cons]

/-- `x` has published the block, or accepted a message with its contents. -/
def Took (n : Net) (b : RawBlock) (x : Bytes) (s : State) : Prop :=
  Obs.published x b ∈ s.log ∨ Obs.judged x (n.encode b) true ∈ s.log

/-- `x` is validating a message with the contents of the block. -/
def Busy (n : Net) (b : RawBlock) (x : Bytes) (s : State) : Prop := ∃ p ∈ s.judging, p.dest = x ∧ p.msg.data = n.encode b

/-- The block has got to `y`, or is on the way to it. -/
def Coming (n : Net) (b : RawBlock) (y : Bytes) (s : State) : Prop :=
  (Took n b y s ∨ Busy n b y s) ∨ ∃ p ∈ s.flight, p.dest = y ∧ p.msg.data = n.encode b

/-- It has got to all neighbours of `x`, or is on the way. -/
def Around (n : Net) (b : RawBlock) (x : Bytes) (s : State) : Prop := ∀ y ∈ n.adj x, n.honest y = true → Coming n b y s

structure Spread (n : Net) (b : RawBlock) (s : State) : Prop where
  packets : ∀ p, p ∈ s.flight ∨ p ∈ s.judging → p.msg.data = n.encode b →
    (n.honest p.source = true → Took n b p.source s ∨ Busy n b p.source s) ∧ (n.honest p.msg.sender = true → Took n b p.msg.sender s)
  judging : ∀ p ∈ s.judging, p.msg.sender ≠ p.dest
  seen : ∀ x, (x, msgID n (n.encode b)) ∈ s.seen → Took n b x s ∨ Busy n b x s
  spread : ∀ x, Took n b x s → Busy n b x s ∨ Around n b x s
  done : ∀ x, Took n b x s → Has x b s

theorem has_mono {x : Bytes} {b : RawBlock} {s s' : State} (h : Has x b s) (hl : ∀ o ∈ s.log, o ∈ s'.log) : Has x b s' :=
  h.imp (hl _) (hl _)

theorem log_step (s s' : State) (l : Label) (h : FTr n s l s') (x : Flood.Obs) (hx : x ∈ s.log) : x ∈ s'.log := by
  cases h with
  | again => exact List.mem_cons_of_mem _ hx
  | publish => exact List.mem_append_right _ (List.mem_cons_of_mem _ hx)
  | lost => exact hx
  | full => exact hx
  | arrive => exact hx
  | judge => exact List.mem_append_right _ (List.mem_cons_of_mem _ (List.mem_append_right _ hx))
  | inject => exact List.mem_cons_of_mem _ hx
  | forget => exact hx

theorem took_step {b : RawBlock} {x : Bytes} {s s' : State} {l : Label} (h : FTr n s l s') (hx : Took n b x s) : Took n b x s' :=
  hx.imp (log_step s s' l h _) (log_step s s' l h _)

section
variable (b : RawBlock) (h : Header) (hb : b.id ≠ none) (hh : b.header = some h) (hp : h.previous ≠ none)
  (hdec : n.decode (n.encode b) = .ok b)

include hb hh hp hdec

/-- A validation of the block ends well. -/
theorem ends_well {s : State} {i : Nat} {lib : UInt64} {answer : Option Err} {p : Packet} {r : GossipValidate.Result RawBlock}
    (hw : Welcome n h (n.encode b) s (.judge i lib answer)) (hi : s.judging[i]? = some p)
    (hr : r = validateBlock { me := p.dest, decode := n.decode, lib := lib, apply := fun _ => answer, author := id } p.msg)
    (hpd : p.msg.data = n.encode b) : r.accept = true ∧ (p.msg.sender ≠ p.dest → r.applied = [b]) ∧ answer = none := by
  obtain ⟨j, hj⟩ := Option.ne_none_iff_exists'.1 hb
  obtain ⟨prev, hprev⟩ := Option.ne_none_iff_exists'.1 hp
  obtain ⟨h1, h2⟩ := hw p hi hpd
  have := welcome_accepted { me := p.dest, decode := n.decode, lib := lib, apply := fun _ => answer, author := id } p.msg b h prev j
    (by simp only [hpd]; exact hdec) hj hh hprev h1 h2
  rw [← hr] at this
  exact ⟨this.1, this.2, h2⟩

omit hb hh hp hdec in
theorem busy_step {s s' : State} {l : Label} (hst : FTr n s l s') (x : Bytes) (hx : Busy n b x s) :
    Busy n b x s' ∨ ∃ p, Judged p s l ∧ p.dest = x ∧ p.msg.data = n.encode b := by
  obtain ⟨p, hp, h1, h2⟩ := hx
  cases hst with
  | arrive => exact Or.inl ⟨p, List.mem_append_left _ hp, h1, h2⟩
  | judge i lib answer q r ws hi hr hws =>
    rcases erase_or hp hi with hp | rfl
    · exact Or.inl ⟨p, hp, h1, h2⟩
    · exact Or.inr ⟨p, hi, h1, h2⟩
  | _ => exact Or.inl ⟨p, hp, h1, h2⟩

/-- Whoever ends a validation of the block has taken it. -/
theorem judged_took {s s' : State} {l : Label} (hw : Welcome n h (n.encode b) s l) (hst : FTr n s l s') (p : Packet) (hj : Judged p s l)
    (hpd : p.msg.data = n.encode b) : Took n b p.dest s' := by
  cases hst with
  | judge i lib answer q r ws hi hr hws =>
    simp only [Judged] at hj
    rw [hi] at hj; cases hj
    right
    have := (ends_well b h hb hh hp hdec hw hi hr hpd).1
    rw [← hpd]
    exact List.mem_append_right _ (by rw [this]; exact List.mem_cons_self ..)
  | _ => exact hj.elim

theorem either_step {s s' : State} {l : Label} (hw : Welcome n h (n.encode b) s l) (hst : FTr n s l s') (x : Bytes)
    (hx : Took n b x s ∨ Busy n b x s) : Took n b x s' ∨ Busy n b x s' := by
  rcases hx with hx | hx
  · exact Or.inl (took_step hst hx)
  · rcases busy_step b hst x hx with hx | ⟨p, hj, rfl, h2⟩
    · exact Or.inr hx
    · exact Or.inl (judged_took b h hb hh hp hdec hw hst p hj h2)

theorem coming_step {s s' : State} {l : Label} (hs : Spread n b s) (hw : Welcome n h (n.encode b) s l) (hst : FTr n s l s') (y : Bytes)
    (hyh : n.honest y = true) (hy : Coming n b y s) : Coming n b y s' := by
  rcases hy with hy | ⟨p, hpf, h1, h2⟩
  · exact Or.inl (either_step b h hb hh hp hdec hw hst y hy)
  cases hst with
  | again => exact Or.inr ⟨p, hpf, h1, h2⟩
  | publish => exact Or.inr ⟨p, List.mem_append_left _ hpf, h1, h2⟩
  | lost i q hi hc =>
    rcases erase_or hpf hi with hpf | rfl
    · exact Or.inr ⟨p, hpf, h1, h2⟩
    · rcases hc with hc | hc | hc
      · rw [h1, hyh] at hc; cases hc
      · left; left
        have := (hs.packets p (Or.inl hpf) h2).2 (by rw [hc, h1]; exact hyh)
        rw [hc, h1] at this
        exact this
      · rw [h1, h2] at hc; exact Or.inl (hs.seen y hc)
  | full i q hi hd ho hm hf =>
    rcases erase_or hpf hi with hpf | rfl
    · exact Or.inr ⟨p, hpf, h1, h2⟩
    · exact absurd (hw p hi h2 hd) hf
  | arrive i q hi hd ho hm =>
    rcases erase_or hpf hi with hpf | rfl
    · exact Or.inr ⟨p, hpf, h1, h2⟩
    · exact Or.inl (Or.inr ⟨p, List.mem_append_right _ (List.mem_singleton_self _), h1, h2⟩)
  | judge => exact Or.inr ⟨p, List.mem_append_left _ hpf, h1, h2⟩
  | inject => exact Or.inr ⟨p, List.mem_append_left _ hpf, h1, h2⟩
  | forget => exact Or.inr ⟨p, hpf, h1, h2⟩

theorem around_step {s s' : State} {l : Label} (hs : Spread n b s) (hw : Welcome n h (n.encode b) s l) (hst : FTr n s l s') (x : Bytes)
    (hx : Around n b x s) : Around n b x s' :=
  fun y hy hyh => coming_step b h hb hh hp hdec hs hw hst y hyh (hx y hy hyh)

/-- Whoever ends a validation of the block has sent it to all neighbours. -/
theorem judged_around {s s' : State} {l : Label} (hs : Spread n b s) (hw : Welcome n h (n.encode b) s l) (hst : FTr n s l s') (p : Packet)
    (hj : Judged p s l) (hpd : p.msg.data = n.encode b) : Around n b p.dest s' := by
  intro y hy hyh
  have hst' := hst
  cases hst with
  | judge i lib answer q r ws hi hr hws =>
    simp only [Judged] at hj
    rw [hi] at hj; cases hj
    have hin := List.mem_of_getElem? hi
    have hps := hs.packets p (Or.inr hin) hpd
    by_cases h1 : y = p.source
    · exact Or.inl (either_step b h hb hh hp hdec hw hst' y (by rw [h1]; exact hps.1 (by rw [← h1]; exact hyh)))
    by_cases h2 : y = p.msg.sender
    · exact Or.inl (Or.inl (took_step hst' (by rw [h2]; exact hps.2 (by rw [← h2]; exact hyh))))
    refine Or.inr ⟨⟨p.dest, y, _⟩, List.mem_append_right _ (List.mem_map.2 ⟨y, ?_, rfl⟩), rfl, hpd⟩
    rw [hws, (ends_well b h hb hh hp hdec hw hi hr hpd).1, if_pos rfl]
    exact List.mem_filter.2 ⟨hy, by simp [h1, h2]⟩
  | _ => exact hj.elim

theorem spread_step (hinj : ∀ c, n.encode c = n.encode b → c = b)
    (hcol : ∀ x, n.sha x = n.sha (n.encode b) → x = n.encode b) (s s' : State) (l : Label)
    (hs : Spread n b s) (hw : Welcome n h (n.encode b) s l) (hst : FTr n s l s') : Spread n b s' := by
  have hid : ∀ x, msgID n x = msgID n (n.encode b) → x = n.encode b := fun x hx => hcol x ((id_iff n _ _).1 hx)
  have either := either_step b h hb hh hp hdec hw hst
  -- the old packets, and those who have taken the block before
  have oldp : ∀ p, p ∈ s.flight ∨ p ∈ s.judging → p.msg.data = n.encode b →
      (n.honest p.source = true → Took n b p.source s' ∨ Busy n b p.source s') ∧ (n.honest p.msg.sender = true → Took n b p.msg.sender s') :=
    fun p hp hpd => ⟨fun hx => either _ ((hs.packets p hp hpd).1 hx), fun hx => took_step hst ((hs.packets p hp hpd).2 hx)⟩
  have oldb : ∀ x, Busy n b x s ∨ Around n b x s → Busy n b x s' ∨ Around n b x s' := by
    intro x hx
    rcases hx with hx | hx
    · rcases busy_step b hst x hx with hx | ⟨p, hj, rfl, h2⟩
      · exact Or.inl hx
      · exact Or.inr (judged_around b h hb hh hp hdec hs hw hst p hj h2)
    · exact Or.inr (around_step b h hb hh hp hdec hs hw hst x hx)
  have olds : ∀ x, Took n b x s → Busy n b x s' ∨ Around n b x s' := fun x hx => oldb x (hs.spread x hx)
  have oldd : ∀ x, Took n b x s → Has x b s' := fun x hx => has_mono (hs.done x hx) (log_step s s' l hst)
  have olde : ∀ x, (x, msgID n (n.encode b)) ∈ s.seen → Took n b x s' ∨ Busy n b x s' := fun x hx => either x (hs.seen x hx)
  have judged : ∀ p, Judged p s l → p.msg.data = n.encode b → Busy n b p.dest s' ∨ Around n b p.dest s' := fun p hj h2 =>
    Or.inr (judged_around b h hb hh hp hdec hs hw hst p hj h2)
  have hst' := hst
  cases hst with
  | again v b' hv hm =>
    have back : ∀ x, Took n b x { s with log := .published v b' :: s.log } → Took n b x s ∨ (x = v ∧ b' = b) := by
      rintro x (hx | hx)
      · rcases List.mem_cons.1 hx with hx | hx
        · cases hx; exact Or.inr ⟨rfl, rfl⟩
        · exact Or.inl (Or.inl hx)
      · exact Or.inl (Or.inr (by simpa using hx))
    refine ⟨oldp, hs.judging, olde, ?_, ?_⟩
    · intro x hx
      rcases back x hx with hx | ⟨rfl, rfl⟩
      · exact olds x hx
      · exact oldb x ((hs.seen x hm).elim (hs.spread x) Or.inl)
    · intro x hx
      rcases back x hx with hx | ⟨rfl, rfl⟩
      · exact oldd x hx
      · exact Or.inl (List.mem_cons_self ..)
  | publish v b' m hm hv hm' =>
    subst hm
    have back : ∀ x, Took n b x { s with
        seen := (v, msgID n (n.encode b')) :: s.seen
        flight := s.flight ++ pass v { data := n.encode b', sender := v, receivedFrom := v, key := v } (n.adj v)
        log := (n.adj v).map (.sent v · (n.encode b')) ++ .published v b' :: s.log } → Took n b x s ∨ (x = v ∧ b' = b) := by
      rintro x (hx | hx)
      · rcases List.mem_append.1 hx with hx | hx
        · simp at hx
        · rcases List.mem_cons.1 hx with hx | hx
          · cases hx; exact Or.inr ⟨rfl, rfl⟩
          · exact Or.inl (Or.inl hx)
      · exact Or.inl (Or.inr (by simpa using hx))
    have pub : b' = b → Took n b v { s with
        seen := (v, msgID n (n.encode b')) :: s.seen
        flight := s.flight ++ pass v { data := n.encode b', sender := v, receivedFrom := v, key := v } (n.adj v)
        log := (n.adj v).map (.sent v · (n.encode b')) ++ .published v b' :: s.log } :=
      fun e => Or.inl (List.mem_append_right _ (by rw [e]; exact List.mem_cons_self ..))
    refine ⟨?_, hs.judging, ?_, ?_, ?_⟩
    · intro p hp hpd
      rcases hp with hp | hp
      · rcases List.mem_append.1 hp with hp | hp
        · exact oldp p (Or.inl hp) hpd
        · obtain ⟨h1, _, h2, h3, _⟩ := mem_pass hp
          rw [hpd] at h2
          simp only at h2 h3
          have := pub (hinj b' h2.symm)
          rw [h1, h3]
          exact ⟨fun _ => Or.inl this, fun _ => this⟩
      · exact oldp p (Or.inr hp) hpd
    · intro x hx
      rcases List.mem_cons.1 hx with hx | hx
      · rw [(Prod.mk.inj hx).1]
        exact Or.inl (pub (hinj b' (hid _ (Prod.mk.inj hx).2.symm)))
      · exact olde x hx
    · intro x hx
      rcases back x hx with hx | ⟨rfl, rfl⟩
      · exact olds x hx
      · exact Or.inr fun y hy hyh => Or.inr ⟨⟨x, y, _⟩, List.mem_append_right _ (List.mem_map.2 ⟨y, hy, rfl⟩), rfl, rfl⟩
    · intro x hx
      rcases back x hx with hx | ⟨rfl, rfl⟩
      · exact oldd x hx
      · exact Or.inl (List.mem_append_right _ (List.mem_cons_self ..))
  | lost i p hi hc =>
    exact ⟨fun q hq => oldp q (hq.imp_left List.mem_of_mem_eraseIdx), hs.judging, olde, olds, oldd⟩
  | full j p hj hd ho hm hf =>
    refine ⟨fun q hq => oldp q (hq.imp_left List.mem_of_mem_eraseIdx), hs.judging, ?_, olds, oldd⟩
    intro x hx
    rcases List.mem_cons.1 hx with hx | hx
    · exact absurd (hw p hj (hid _ (Prod.mk.inj hx).2.symm) hd) hf
    · exact olde x hx
  | arrive j p hj hd ho hm =>
    have hin := List.mem_of_getElem? hj
    refine ⟨?_, ?_, ?_, olds, oldd⟩
    · intro q hq hqd
      refine oldp q ?_ hqd
      rcases hq with hq | hq
      · exact Or.inl (List.mem_of_mem_eraseIdx hq)
      · rcases List.mem_append.1 hq with hq | hq
        · exact Or.inr hq
        · simp only [List.mem_singleton] at hq; subst hq; exact Or.inl hin
    · intro q hq
      rcases List.mem_append.1 hq with hq | hq
      · exact hs.judging q hq
      · simp only [List.mem_singleton] at hq
        subst hq; exact ho
    · intro x hx
      rcases List.mem_cons.1 hx with hx | hx
      · obtain ⟨h1, h2⟩ := Prod.mk.inj hx
        exact Or.inr ⟨p, List.mem_append_right _ (List.mem_singleton_self _), h1.symm, hid _ h2.symm⟩
      · exact olde x hx
  | judge j lib answer p r ws hj hr hws =>
    have hin := List.mem_of_getElem? hj
    have back : ∀ x, Took n b x { s with
        judging := s.judging.eraseIdx j
        flight := s.flight ++ pass p.dest p.msg ws
        log := ws.map (.sent p.dest · p.msg.data) ++ (r.report.toList.map fun x => .reported p.dest x.1 x.2) ++
          .judged p.dest p.msg.data r.accept :: (r.applied.map (.applied p.dest · answer) ++ s.log) } →
        Took n b x s ∨ (x = p.dest ∧ p.msg.data = n.encode b) := by
      rintro x (hx | hx)
      · exact Or.inl (Or.inl (by simpa using hx))
      · simp only [List.mem_append, List.mem_map, List.mem_cons] at hx
        rcases hx with (⟨_, _, hx⟩ | ⟨_, _, hx⟩) | hx | ⟨_, _, hx⟩ | hx
        · cases hx
        · cases hx
        · simp only [Obs.judged.injEq] at hx
          exact Or.inr ⟨hx.1, hx.2.1.symm⟩
        · cases hx
        · exact Or.inl (Or.inr hx)
    refine ⟨?_, fun q hq => hs.judging q (List.mem_of_mem_eraseIdx hq), olde, ?_, ?_⟩
    · intro q hq hqd
      rcases hq with hq | hq
      · rcases List.mem_append.1 hq with hq | hq
        · exact oldp q (Or.inl hq) hqd
        · obtain ⟨h1, _, h2, h3, _⟩ := mem_pass hq
          rw [hqd] at h2
          rw [h1, h3]
          exact ⟨fun _ => Or.inl (judged_took b h hb hh hp hdec hw hst' p hj h2.symm), (oldp p (Or.inr hin) h2.symm).2⟩
      · exact oldp q (Or.inr (List.mem_of_mem_eraseIdx hq)) hqd
    · intro x hx
      rcases back x hx with hx | ⟨rfl, hpd⟩
      · exact olds x hx
      · exact judged p hj hpd
    · intro x hx
      rcases back x hx with hx | ⟨rfl, hpd⟩
      · exact oldd x hx
      · obtain ⟨_, g2, g3⟩ := ends_well b h hb hh hp hdec hw hj hr hpd
        right
        simp only [g2 (hs.judging p hin), g3]
        simp
  | inject p h1 h3 h2 =>
    have back : ∀ x, Took n b x { s with flight := s.flight ++ [p], log := .sent p.source p.dest p.msg.data :: s.log } → Took n b x s :=
      fun x hx => hx.imp (by simp) (by simp)
    refine ⟨?_, hs.judging, olde, fun x hx => olds x (back x hx), fun x hx => oldd x (back x hx)⟩
    intro q hq hqd
    rcases hq with hq | hq
    · rcases List.mem_append.1 hq with hq | hq
      · exact oldp q (Or.inl hq) hqd
      · simp only [List.mem_singleton] at hq
        subst hq
        refine ⟨fun h => (by rw [h1] at h; cases h), fun h => ?_⟩
        rcases h2 with h2 | ⟨c, h2, h4⟩
        · rw [h2] at h; cases h
        · rw [hinj c (h4.trans hqd)] at h2
          exact Or.inl (List.mem_cons_of_mem _ h2)
    · exact oldp q (Or.inr hq) hqd
  | forget v id =>
    exact ⟨oldp, hs.judging, fun x hx => olde x (List.mem_of_mem_filter hx), olds, oldd⟩

end

theorem mono_of {α : Type} (f : State → List α) (hstep : ∀ s s' l, FTr n s l s' → ∀ x ∈ f s, x ∈ f s') (σ : Nat → State)
    (ev : Nat → Label) (hx : Loose n σ ev) (x : α) (k j : Nat) (hkj : k ≤ j) (hk : x ∈ f (σ k)) : x ∈ f (σ j) := by
  obtain ⟨i, rfl⟩ := Nat.exists_eq_add_of_le hkj
  induction i with
  | zero => exact hk
  | succ i ih =>
    rcases hx.2 (k + i) with h | ⟨h, _⟩
    · exact hstep _ _ _ h x (ih (by omega))
    · rw [show k + (i + 1) = k + i + 1 from rfl, h]; exact ih (by omega)

/-- The block gets to all nodes if every validation on the way comes to an end. -/
theorem reaches (σ : Nat → State) (ev : Nat → Label) (hx : Loose n σ ev) (hf : FairDelivery σ ev) (b : RawBlock) (h : Header)
    (hb : b.id ≠ none) (hh : b.header = some h) (hp : h.previous ≠ none) (hdec : n.decode (n.encode b) = .ok b)
    (hinj : ∀ c, n.encode c = n.encode b → c = b) (hcol : ∀ x, n.sha x = n.sha (n.encode b) → x = n.encode b)
    (hw : ∀ k, Welcome n h (n.encode b) (σ k) (ev k)) (v : Bytes)
    (hj : ∀ p k, Path n v p.dest → p.msg.data = n.encode b → (∀ j, k ≤ j → p ∈ (σ j).judging) → ∃ j, k ≤ j ∧ Judged p (σ j) (ev j))
    (k : Nat) (w : Bytes) (hv : Obs.published v b ∈ (σ k).log) (hpath : Path n v w) : ∃ j, k ≤ j ∧ Has w b (σ j) := by
  have hinv : ∀ k, Spread n b (σ k) := by
    intro k
    induction k with
    | zero =>
      rw [hx.1]
      exact ⟨fun _ h => (by rcases h with h | h <;> cases h), fun _ h => (by cases h), fun _ h => (by cases h),
        fun _ h => (by rcases h with h | h <;> cases h), fun _ h => (by rcases h with h | h <;> cases h)⟩
    | succ k ih =>
      rcases hx.2 k with hst | ⟨hst, _⟩
      · exact spread_step b h hb hh hp hdec hinj hcol _ _ _ ih (hw k) hst
      · rw [hst]; exact ih
  -- a validation ends
  have settle : ∀ y, Path n v y → ∀ j, Busy n b y (σ j) → ∃ i, j ≤ i ∧ Took n b y (σ i) ∧ Around n b y (σ i) := by
    intro y hy j ⟨p, hp', hpd, hpm⟩
    have : ∃ i, j ≤ i ∧ Judged p (σ i) (ev i) := by
      by_contra hno
      have hstay : ∀ i, j ≤ i → p ∈ (σ i).judging := by
        intro i hi
        obtain ⟨e, rfl⟩ := Nat.exists_eq_add_of_le hi
        induction e with
        | zero => exact hp'
        | succ e ihe =>
          have hin := ihe (by omega)
          have hst := hx.2 (j + e)
          have ha : ¬ Judged p (σ (j + e)) (ev (j + e)) := fun h => hno ⟨j + e, by omega, h⟩
          rw [show j + (e + 1) = j + e + 1 from rfl]
          generalize ev (j + e) = l at ha hst
          generalize σ (j + e + 1) = s' at hst
          rcases hst with hst | ⟨rfl, v', b', rfl⟩
          swap
          · exact hin
          cases hst with
          | judge i' lib answer q r ws hq =>
            rcases erase_or hin hq with h | rfl
            · exact h
            · exact absurd hq ha
          | arrive => exact List.mem_append_left _ hin
          | _ => exact hin
      exact hno (hj p j (by rw [hpd]; exact hy) hpm hstay)
    obtain ⟨i, hi, ha⟩ := this
    rcases hx.2 i with hst | ⟨_, v', b', he⟩
    · refine ⟨i + 1, by omega, ?_, ?_⟩
      · rw [← hpd]; exact judged_took b h hb hh hp hdec (hw i) hst p ha hpm
      · rw [← hpd]; exact judged_around b h hb hh hp hdec (hinv i) (hw i) hst p ha hpm
    · rw [he] at ha; exact ha.elim
  have ready : ∀ y, Path n v y → ∀ j, Took n b y (σ j) ∨ Busy n b y (σ j) → ∃ i, j ≤ i ∧ Took n b y (σ i) ∧ Around n b y (σ i) := by
    intro y hy j hj
    rcases hj with hj | hj
    · rcases (hinv j).spread y hj with h | h
      · exact settle y hy j h
      · exact ⟨j, Nat.le_refl _, hj, h⟩
    · exact settle y hy j hj
  have hall : ∃ j, k ≤ j ∧ Took n b w (σ j) ∧ Around n b w (σ j) := by
    induction hpath with
    | here => exact ready v .here k (Or.inl (Or.inl hv))
    | step w y hpw hy hyh ih =>
      obtain ⟨j, hkj, hwj, haj⟩ := ih
      suffices ∃ i, j ≤ i ∧ (Took n b y (σ i) ∨ Busy n b y (σ i)) by
        obtain ⟨i, hi, hs⟩ := this
        obtain ⟨e, he, h⟩ := ready y (.step w y hpw hy hyh) i hs
        exact ⟨e, by omega, h⟩
      by_contra hno
      have hns : ∀ i, j ≤ i → ¬ (Took n b y (σ i) ∨ Busy n b y (σ i)) := fun i hi h => hno ⟨i, hi, h⟩
      obtain ⟨p, hp', hpd, hpm⟩ := (haj y hy hyh).resolve_left (hns j (Nat.le_refl _))
      have harr : ∀ i, j ≤ i → p ∈ (σ i).flight → ¬ Arrives p (σ i) (ev i) := by
        intro i hi hin ha
        have hst := hx.2 i
        have hn' := hns (i + 1) (by omega)
        have hn := hns i hi
        have hI := hinv i
        have hwi := hw i
        generalize ev i = l at ha hst hwi
        generalize σ (i + 1) = s' at hst hn'
        rcases hst with hst | ⟨rfl, v', b', rfl⟩
        swap
        · exact ha
        cases hst with
        | lost i' q hq hc =>
          simp only [Arrives] at ha
          rw [hq] at ha; cases ha
          rw [hpd, hpm] at hc
          rcases hc with hc | hc | hc
          · rw [hyh] at hc; cases hc
          · have := (hI.packets p (Or.inl hin) hpm).2 (by rw [hc]; exact hyh)
            rw [hc] at this
            exact hn (Or.inl this)
          · exact hn (hI.seen y hc)
        | full i' q hq hd ho hm hf =>
          simp only [Arrives] at ha
          rw [hq] at ha; cases ha
          exact hf (hwi p hq hpm hd)
        | arrive i' q hq =>
          simp only [Arrives] at ha
          rw [hq] at ha; cases ha
          exact hn' (Or.inr ⟨p, List.mem_append_right _ (List.mem_singleton_self _), hpd, hpm⟩)
        | _ => exact ha
      have hstay : ∀ i, j ≤ i → p ∈ (σ i).flight := by
        intro i hi
        obtain ⟨e, rfl⟩ := Nat.exists_eq_add_of_le hi
        induction e with
        | zero => exact hp'
        | succ e ihe =>
          have hin := ihe (by omega)
          have hst := hx.2 (j + e)
          have ha := harr (j + e) (by omega) hin
          rw [show j + (e + 1) = j + e + 1 from rfl]
          generalize ev (j + e) = l at ha hst
          generalize σ (j + e + 1) = s' at hst
          rcases hst with hst | ⟨rfl, v', b', rfl⟩
          swap
          · exact hin
          cases hst with
          | again => exact hin
          | publish => exact List.mem_append_left _ hin
          | lost i' q hq hc =>
            rcases erase_or hin hq with h | rfl
            · exact h
            · exact absurd hq ha
          | full i' q hq =>
            rcases erase_or hin hq with h | rfl
            · exact h
            · exact absurd hq ha
          | arrive i' q hq =>
            rcases erase_or hin hq with h | rfl
            · exact h
            · exact absurd hq ha
          | judge => exact List.mem_append_left _ hin
          | inject => exact List.mem_append_left _ hin
          | forget => exact hin
      obtain ⟨i, hi, ha⟩ := hf p j hstay
      exact harr i hi (hstay i hi) ha
  obtain ⟨j, hkj, ht, _⟩ := hall
  exact ⟨j, hkj, (hinv j).done w ht⟩

end Flood
end KP2P

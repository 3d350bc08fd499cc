import Verif.Props.Whole
/-!
# C144: concrete networks, and why validations must not give up
-/

namespace KP2P
open KP2P.Whole KP2P.Spec.Whole
open KP2P.Flood (Net Packet)

namespace Whole

/-! ## Checked runs that end with nodes at rest -/

section checked
variable (n : Net) (nodes : List Bytes) (bs : List Blk)

def okStep (s : State) (l : Label) : Bool :=
  nodes.all fun v => Link.truthfulB bs (s.node v) && Link.inTimeB {} (s.node v) (here n v s l) && !(s.node v).app.hung &&
    decide ((s.node v).app.highest.toNat + 1 < 2 ^ 64) && decide (s.net.judging.countP (fun q => q.dest = v) < n.room)

def checkRun (s : State) : List Label → Option State
  | [] => some s
  | l :: ls =>
    if okStep n nodes bs s l then
      match step n {} s l with
      | some s' => checkRun s' ls
      | none => none
    else none

/-- Nothing is under way at the node. -/
def restB (x : Link.State) : Bool :=
  decide (x.news = [] ∧ x.app.newQ = [] ∧ x.app.tries = [] ∧ x.app.retries = [] ∧ x.app.apps = [] ∧ x.app.waiting = []) &&
  Link.truthfulB bs x && !x.app.hung && decide (x.app.highest.toNat + 1 < 2 ^ 64)

def cleanB (x : Link.State) : Bool :=
  x.app.log.all (fun
    | .call _ c => bs.all fun b => decide (c.id = b.id → c = b)
    | .refused _ _ => false
    | .answer _ e => decide (e ≠ some (.sentinel .maxHeight) ∧ e ≠ some (.sentinel .maxPendingBlocks) ∧
        e ≠ some (.sentinel .blockIrreversibility))
    | .status _ e => Link.willingB e
    | .delayTimeout _ => false
    | _ => true) &&
  bs.all (fun b => (bs.any fun p => decide (p.id = b.previous ∧ p.height.toNat + 1 = b.height.toNat)) ||
    x.app.log.all fun
      | .status c e => decide (c.id = b.previous → e = none)
      | _ => true)

variable {n nodes bs}

theorem clean_of {x : Link.State} (h : cleanB bs x = true) : Link.Clean (· ∈ bs) x.app.log := by
  simp only [cleanB, Bool.and_eq_true] at h
  obtain ⟨h1, h3⟩ := h
  have hl := fun x hx => List.all_eq_true.1 h1 x hx
  refine ⟨?_, ?_, ?_, ?_, ?_, ?_⟩
  · rintro b hb c ⟨r, hc⟩ hid
    have := List.all_eq_true.1 (hl _ hc) b hb
    simp only [decide_eq_true_eq] at this
    exact this hid
  · intro b r e _ _ hr
    exact absurd (hl _ hr) (by simp)
  · intro b r x _ hx _ ha
    have := hl _ ha
    simp only [decide_eq_true_eq] at this
    rcases hx with rfl | rfl | rfl
    · exact this.1 rfl
    · exact this.2.1 rfl
    · exact this.2.2 rfl
  · intro b e _ hst
    have := hl _ hst
    unfold Link.Willing
    cases e with
    | none => exact Or.inl rfl
    | some e =>
      simp only [Link.willingB, Bool.or_eq_true] at this
      exact Or.inr this
  · intro b _ hd
    exact absurd (hl _ hd) (by simp)
  · intro b hb
    have := List.all_eq_true.1 h3 b hb
    rcases Bool.or_eq_true_iff.1 this with h4 | h4
    · left
      obtain ⟨p, hp, h5⟩ := List.any_eq_true.1 h4
      simp only [decide_eq_true_eq] at h5
      exact ⟨p, hp, h5⟩
    · right
      intro c e hid hst
      have := List.all_eq_true.1 h4 _ hst
      simp only [decide_eq_true_eq] at this
      exact this hid

theorem checkRun_get (ls : List Label) (s X : State) (h : checkRun n nodes bs s ls = some X) :
    ∃ f : Nat → State, f 0 = s ∧ f ls.length = X ∧ ∀ k l, ls[k]? = some l → okStep n nodes bs (f k) l = true ∧ step n {} (f k) l = some (f (k + 1)) := by
  induction ls generalizing s with
  | nil => simp only [checkRun, Option.some.injEq] at h; exact ⟨fun _ => s, rfl, h, fun k l h => by simp at h⟩
  | cons l ls ih =>
    simp only [checkRun] at h
    split at h
    · rename_i hok
      split at h
      · rename_i s' hst
        obtain ⟨f, h0, hX, hf⟩ := ih s' h
        refine ⟨fun k => match k with | 0 => s | k + 1 => f k, rfl, hX, fun k m hk => ?_⟩
        cases k with
        | zero =>
          simp only [List.getElem?_cons_zero, Option.some.injEq] at hk
          subst hk
          exact ⟨hok, by rw [hst]; exact congrArg some h0.symm⟩
        | succ k => exact hf k m (by simpa using hk)
      · cases h
    · cases h

variable (n nodes) in
/-- The given steps, and then the clocks of all nodes in turn, for ever. -/
def evC (ls : List Label) (k : Nat) : Label :=
  match ls[k]? with
  | some l => l
  | none => .node (nodes[k % nodes.length]?.getD []) (.act (.tick 1))

variable (n nodes) in
def stC (s0 : State) (ls : List Label) : Nat → State
  | 0 => s0
  | k + 1 => (step n {} (stC s0 ls k) (evC nodes ls k)).getD (stC s0 ls k)

/-- The clock is later by `d`. -/
def later (x : Link.State) (d : Nat) : Link.State := { x with app := { x.app with now := x.app.now + d } }

structure Checked (n : Net) (nodes : List Bytes) (bs : List Blk) (s0 : State) (ls : List Label) (X : State) : Prop where
  honest : ∀ v, n.honest v = true ↔ v ∈ nodes
  nonempty : nodes ≠ []
  run : checkRun n nodes bs s0 ls = some X
  rest : nodes.all (fun v => restB bs (X.node v) && cleanB bs (X.node v)) = true
  net : X.net.flight = [] ∧ X.net.judging = []
  start : s0 = init s0.node
  fresh : ∀ v ∈ nodes, Fresh (s0.node v)

variable {s0 X : State} {ls : List Label} (hc : Checked n nodes bs s0 ls X)
include hc

theorem stC_run : stC n nodes s0 ls ls.length = X ∧ ∀ k l, ls[k]? = some l → okStep n nodes bs (stC n nodes s0 ls k) l = true ∧
    step n {} (stC n nodes s0 ls k) (evC nodes ls k) = some (stC n nodes s0 ls (k + 1)) := by
  obtain ⟨f, h0, hX, hf⟩ := checkRun_get ls s0 X hc.run
  have heq : ∀ k, k ≤ ls.length → stC n nodes s0 ls k = f k := by
    intro k
    induction k with
    | zero => intro _; exact h0.symm
    | succ k ih =>
      intro hk
      obtain ⟨l, hl⟩ : ∃ l, ls[k]? = some l := ⟨ls[k], List.getElem?_eq_getElem (by omega)⟩
      have he : evC nodes ls k = l := by simp only [evC, hl]
      rw [stC, ih (by omega), he, (hf k l hl).2]
      rfl
  refine ⟨by rw [heq _ (Nat.le_refl _), hX], fun k l hl => ?_⟩
  have hk : k < ls.length := by
    rcases Nat.lt_or_ge k ls.length with h | h
    · exact h
    · rw [List.getElem?_eq_none h] at hl; cases hl
  have he : evC nodes ls k = l := by simp only [evC, hl]
  rw [heq k (by omega), heq (k + 1) (by omega), he]
  exact hf k l hl

theorem evC_tail (j : Nat) : ∃ v, v ∈ nodes ∧ nodes[(ls.length + j) % nodes.length]? = some v ∧
    evC nodes ls (ls.length + j) = .node v (.act (.tick 1)) := by
  have hlen : 0 < nodes.length := List.length_pos_iff.2 hc.nonempty
  have hlt : (ls.length + j) % nodes.length < nodes.length := Nat.mod_lt _ hlen
  refine ⟨nodes[(ls.length + j) % nodes.length], List.getElem_mem hlt, List.getElem?_eq_getElem hlt, ?_⟩
  simp only [evC, List.getElem?_eq_none (Nat.le_add_right ls.length j), List.getElem?_eq_getElem hlt, Option.getD_some]

theorem tick_step (s : State) (v : Bytes) (hv : v ∈ nodes) :
    step n {} s (.node v (.act (.tick 1))) = some { s with node := Function.update s.node v (later (s.node v) 1) } := by
  simp only [step, (hc.honest v).2 hv, if_true, Link.step, App.step, Option.map_some, later]

theorem stC_tail (j : Nat) : (stC n nodes s0 ls (ls.length + j)).net = X.net ∧ (stC n nodes s0 ls (ls.length + j)).calls = X.calls ∧
    (∀ v, ∃ d, (stC n nodes s0 ls (ls.length + j)).node v = later (X.node v) d) ∧
    step n {} (stC n nodes s0 ls (ls.length + j)) (evC nodes ls (ls.length + j)) = some (stC n nodes s0 ls (ls.length + j + 1)) := by
  have one : ∀ j, step n {} (stC n nodes s0 ls (ls.length + j)) (evC nodes ls (ls.length + j)) =
      some (stC n nodes s0 ls (ls.length + j + 1)) := by
    intro j
    obtain ⟨v, hv, _, he⟩ := evC_tail hc j
    rw [stC, he, tick_step hc _ v hv]
    rfl
  refine ⟨?_, ?_, ?_, one j⟩
  all_goals induction j with
  | zero => first | (rw [Nat.add_zero, (stC_run hc).1]; done) | (intro v; exact ⟨0, by rw [Nat.add_zero, (stC_run hc).1]; simp [later]⟩)
  | succ j ih =>
    obtain ⟨v, hv, _, he⟩ := evC_tail hc j
    have hs := one j
    rw [he, tick_step hc _ v hv] at hs
    rw [show ls.length + (j + 1) = ls.length + j + 1 from rfl, ← Option.some.inj hs]
    first
    | exact ih
    | (intro w
       obtain ⟨d, hd⟩ := ih w
       by_cases hw : w = v
       · subst hw; exact ⟨d + 1, by simp only [Function.update_self, hd, later]; simp [Int.add_assoc]⟩
       · exact ⟨d, by simp only [Function.update_of_ne hw, hd]⟩)

theorem execC : Exec n {} (stC n nodes s0 ls) (evC nodes ls) := by
  refine ⟨fun v hv => hc.fresh v ((hc.honest v).1 hv), hc.start, fun k => ?_⟩
  rcases Nat.lt_or_ge k ls.length with h | h
  · exact ((stC_run hc).2 k _ (List.getElem?_eq_getElem h)).2
  · obtain ⟨j, rfl⟩ := Nat.exists_eq_add_of_le h
    exact (stC_tail hc j).2.2.2

theorem rest_of (v : Bytes) (hv : v ∈ nodes) : restB bs (X.node v) = true ∧ cleanB bs (X.node v) = true := by
  have := List.all_eq_true.1 hc.rest v hv
  simpa using this

omit hc in
theorem asleep {x : Link.State} (h : restB bs x = true) (d : Nat) : (∀ i, Link.step {} (later x d) (.deliver i) = none) ∧
    ∀ (κ : App.Kind) l, κ.has l → Link.step {} (later x d) (.act l) = none := by
  simp only [restB, Bool.and_eq_true, decide_eq_true_eq] at h
  obtain ⟨⟨⟨⟨h1, h2, h3, h4, h5, h6⟩, _⟩, _⟩, _⟩ := h
  refine ⟨fun i => by simp [Link.step, later, h1], fun κ l hl => ?_⟩
  cases l <;> cases κ <;> first
    | exact hl.elim
    | simp [Link.step, App.step, later, h2, h3, h4, h5, h6]

theorem fairC : Fair n {} (stC n nodes s0 ls) (evC nodes ls) := by
  have tail : ∀ k, ∃ j, k ≤ ls.length + j := fun k => ⟨k, by omega⟩
  refine ⟨fun p k h => ?_, fun p k h => ?_, fun v hv T k => ?_, fun v hv k h => ?_, fun v hv κ k h => ?_⟩
  · have := h (ls.length + k) (by omega)
    rw [(stC_tail hc k).1, hc.net.1] at this
    cases this
  · obtain ⟨i, lib, h1, _⟩ := h (ls.length + k) (by omega)
    rw [(stC_tail hc k).1, hc.net.2] at h1
    simp at h1
  · have hv := (hc.honest v).1 hv
    obtain ⟨i, hi, rfl⟩ := List.getElem_of_mem hv
    have hmono : ∀ k j, k ≤ j → ((stC n nodes s0 ls (ls.length + k)).node nodes[i]).app.now ≤ ((stC n nodes s0 ls (ls.length + j)).node nodes[i]).app.now := by
      intro k j hkj
      obtain ⟨e, rfl⟩ := Nat.exists_eq_add_of_le hkj
      induction e with
      | zero => exact Int.le_refl _
      | succ e ih =>
        refine Int.le_trans (ih (by omega)) ?_
        obtain ⟨w, hw, _, he⟩ := evC_tail hc (k + e)
        have hs := (stC_tail hc (k + e)).2.2.2
        rw [he, tick_step hc _ w hw] at hs
        rw [show ls.length + (k + (e + 1)) = ls.length + (k + e) + 1 from rfl, ← Option.some.inj hs]
        by_cases hw' : nodes[i] = w
        · rw [hw']; simp only [Function.update_self, later]; omega
        · simp only [Function.update_of_ne hw']; omega
    have hgrow : ∀ t : Nat, ∃ j, k ≤ j ∧ ((stC n nodes s0 ls (ls.length + k)).node nodes[i]).app.now + t ≤
        ((stC n nodes s0 ls (ls.length + j)).node nodes[i]).app.now := by
      intro t
      induction t with
      | zero => exact ⟨k, Nat.le_refl _, by omega⟩
      | succ t ih =>
        obtain ⟨j, hj, hle⟩ := ih
        obtain ⟨e, he⟩ : ∃ e, ls.length + (j + e) = nodes.length * (ls.length + j + 1) + i := by
          have : ls.length + j + 1 ≤ nodes.length * (ls.length + j + 1) := Nat.le_mul_of_pos_left _ (by omega)
          exact ⟨nodes.length * (ls.length + j + 1) + i - (ls.length + j), by omega⟩
        refine ⟨j + e + 1, by omega, ?_⟩
        obtain ⟨w, hw, hget, hev⟩ := evC_tail hc (j + e)
        have hs := (stC_tail hc (j + e)).2.2.2
        rw [hev, tick_step hc _ w hw] at hs
        rw [he, Nat.mul_add_mod, Nat.mod_eq_of_lt hi, List.getElem?_eq_getElem hi] at hget
        cases hget
        have := hmono j (j + e) (by omega)
        rw [show ls.length + (j + e + 1) = ls.length + (j + e) + 1 from rfl, ← Option.some.inj hs]
        simp only [Function.update_self, later]
        push_cast
        omega
    obtain ⟨j, hj, hle⟩ := hgrow (T - ((stC n nodes s0 ls (ls.length + k)).node nodes[i]).app.now).toNat
    exact ⟨ls.length + j, by omega, by omega⟩
  · obtain ⟨i, hi⟩ := h (ls.length + k) (by omega)
    obtain ⟨d, hd⟩ := (stC_tail hc k).2.2.1 v
    rw [hd, (asleep (rest_of hc v ((hc.honest v).1 hv)).1 d).1] at hi
    cases hi
  · obtain ⟨l, hl, hi⟩ := h (ls.length + k) (by omega)
    obtain ⟨d, hd⟩ := (stC_tail hc k).2.2.1 v
    rw [hd, (asleep (rest_of hc v ((hc.honest v).1 hv)).1 d).2 κ l hl] at hi
    cases hi

omit hc in
theorem evC_cases (k : Nat) (P : Label → Prop) (hls : ∀ l ∈ ls, P l) (htick : ∀ v, P (.node v (.act (.tick 1)))) : P (evC nodes ls k) := by
  unfold evC
  split
  · rename_i l hl; exact hls l (List.mem_of_getElem? hl)
  · exact htick _

theorem finiteC (D : List Bytes) (ids : List Bytes) (h : ∀ l ∈ ls, (∀ p, l = .inject p → p.msg.data ∈ D) ∧
    (∀ v b, l = .publish v b → n.encode b ∈ D) ∧ ∀ v id prev h, l = .node v (.accept id prev h) → id ∈ ids) :
    Finite n (stC n nodes s0 ls) (evC nodes ls) := by
  have all := fun k => evC_cases (nodes := nodes) (ls := ls) k (fun l => (∀ p, l = .inject p → p.msg.data ∈ D) ∧
    (∀ v b, l = .publish v b → n.encode b ∈ D) ∧ ∀ v id prev h, l = .node v (.accept id prev h) → id ∈ ids) h
    (fun v => ⟨fun _ h => (by cases h), fun _ _ h => (by cases h), fun _ _ _ _ h => (by cases h)⟩)
  refine ⟨⟨D, fun k => ⟨(all k).1, (all k).2.1⟩⟩, ⟨ls.length, fun k hk v id hev => ?_⟩, fun v _ => ⟨ids, fun k id prev h => (all k).2.2 v id prev h⟩,
    fun v _ => ⟨ls.length, fun k hk l hl => ?_⟩⟩
  · obtain ⟨j, rfl⟩ := Nat.exists_eq_add_of_le hk
    obtain ⟨w, _, _, he⟩ := evC_tail hc j
    rw [he] at hev
    cases hev
  · obtain ⟨j, rfl⟩ := Nat.exists_eq_add_of_le hk
    obtain ⟨w, _, _, he⟩ := evC_tail hc j
    rw [he] at hl
    cases hl
    trivial

theorem readyC {c : Nat → RawBlock} {hd : Nat → Header} {len : Nat} (hbs : ∀ b, Blocks c len b ↔ b ∈ bs)
    (hroot : ∀ v ∈ nodes, ∃ h, (str (hd 0).previous, h) ∈ (s0.node v).accepted ∧ (hd 0).height.toNat ≤ h.toNat + 1)
    (hlow : ∀ l ∈ ls, ∀ i lib, l = .finish i lib → lib = 0) (v : Bytes) (hv : n.honest v = true) :
    Ready n {} c hd len (stC n nodes s0 ls) (evC nodes ls) v := by
  have hbs : Blocks c len = (· ∈ bs) := funext fun b => propext (hbs b)
  have hvn := (hc.honest v).1 hv
  have hx := execC hc
  obtain ⟨hrest, hclean⟩ := rest_of hc v hvn
  simp only [restB, Bool.and_eq_true, decide_eq_true_eq, Bool.not_eq_true'] at hrest
  obtain ⟨⟨⟨⟨h1, h2, h3, h4, h5, h6⟩, ht⟩, hh⟩, hr⟩ := hrest
  have hpre : ∀ k, k < ls.length → Link.truthfulB bs ((stC n nodes s0 ls k).node v) = true ∧
      Link.inTimeB {} ((stC n nodes s0 ls k).node v) (here n v (stC n nodes s0 ls k) (evC nodes ls k)) = true ∧
      ((stC n nodes s0 ls k).node v).app.hung = false ∧ ((stC n nodes s0 ls k).node v).app.highest.toNat + 1 < 2 ^ 64 ∧
      Spec.Flood.Roomy n (stC n nodes s0 ls k).net v := by
    intro k hk
    have hl := List.getElem?_eq_getElem hk
    have := List.all_eq_true.1 ((stC_run hc).2 k _ hl).1 v hvn
    have he : evC nodes ls k = ls[k] := by simp only [evC, hl]
    rw [he]
    simpa [and_assoc, Spec.Flood.Roomy] using this
  refine ⟨fun k => ?_, fun k => ?_, hroot v hvn, fun k => ?_, fun k => ?_, fun k i lib p j hev _ _ _ _ => ?_, fun k i p j hev _ _ _ _ => ?_⟩
  · rw [hbs]
    rcases Nat.lt_or_ge k ls.length with h | h
    · obtain ⟨g1, g2, _⟩ := hpre k h
      exact ⟨Link.truthful_of g1, fun b _ hw hrep hte => Link.inTime_of (sound hx v hv k).1.idx g2 b hw hrep hte⟩
    · obtain ⟨j, rfl⟩ := Nat.exists_eq_add_of_le h
      obtain ⟨d, hd⟩ := (stC_tail hc j).2.2.1 v
      obtain ⟨w, _, _, he⟩ := evC_tail hc j
      rw [hd, he]
      refine ⟨Link.truthful_of ht, fun b _ _ hrep => ?_⟩
      have hn : ∀ l : Link.Label, (∃ m, l = .act (.tick m)) → ¬ Link.Reports (later (X.node v) d) l b.previous := by
        rintro _ ⟨m, rfl⟩ (⟨i, m, h, _⟩ | ⟨i, b', h, _⟩) <;> cases h
      exfalso
      refine hn _ ?_ hrep
      simp only [here]
      split
      · exact ⟨1, rfl⟩
      · exact ⟨0, rfl⟩
  · rw [hbs]
    have hX := clean_of hclean
    refine hX.back fun x hxl => ?_
    have := log_mono hx v hv (Nat.le_add_left k ls.length) hxl
    obtain ⟨d, hd⟩ := (stC_tail hc k).2.2.1 v
    rw [hd] at this
    exact this
  · rcases Nat.lt_or_ge k ls.length with h | h
    · exact (hpre k h).2.2.1
    · obtain ⟨j, rfl⟩ := Nat.exists_eq_add_of_le h
      obtain ⟨d, hd⟩ := (stC_tail hc j).2.2.1 v
      rw [hd]; exact hh
  · rcases Nat.lt_or_ge k ls.length with h | h
    · exact (hpre k h).2.2.2.1
    · obtain ⟨j, rfl⟩ := Nat.exists_eq_add_of_le h
      obtain ⟨d, hd⟩ := (stC_tail hc j).2.2.1 v
      rw [hd]; exact hr
  · have := evC_cases (nodes := nodes) (ls := ls) k (fun l => ∀ i lib, l = .finish i lib → lib = 0) hlow (fun _ _ _ h => (by cases h))
    rw [this i lib hev]
    exact Nat.zero_le _
  · rcases Nat.lt_or_ge k ls.length with h | h
    · exact (hpre k h).2.2.2.2
    · obtain ⟨j, rfl⟩ := Nat.exists_eq_add_of_le h
      obtain ⟨w, _, _, he⟩ := evC_tail hc j
      rw [he] at hev; cases hev

theorem patientC {c : Nat → RawBlock} {len : Nat}
    (h : nodes.all (fun v => (X.node v).app.log.all fun | .returned _ e => decide (e = none) | _ => true) = true) (v : Bytes)
    (hv : n.honest v = true) : Patient n c len (stC n nodes s0 ls) v := by
  intro k x i _ _ _ _ hr
  have hx := execC hc
  have hr := log_mono hx v hv (Nat.le_add_left k ls.length) hr
  obtain ⟨d, hd⟩ := (stC_tail hc k).2.2.1 v
  rw [hd] at hr
  have := List.all_eq_true.1 (List.all_eq_true.1 h v ((hc.honest v).1 hv)) _ hr
  simp at this

end checked

/-! ## The networks -/

def wA : RawBlock := { id := some [0], header := some { previous := some [9], height := 10, timestamp := 0, signer := none } }
def wB : RawBlock := { id := some [1], header := some { previous := some [0], height := 11, timestamp := 0, signer := none } }

/-- Three nodes in a row. -/
def wnet : Net where
  honest v := decide (v ∈ [[1], [2], [3]])
  adj v := if v = [2] then [[1], [3]] else [[2]]
  encode b := if b = wA then [1] else if b = wB then [2] else []
  decode x := if x = [1] then .ok wA else if x = [2] then .ok wB else .error (.other 0)
  sha := id
  room := 1024

/-- All chains have the parent of the first block, at height 9. -/
def w0 : State := init fun _ => Link.init 9 0 0 [([9], 9)]

/-- Two blocks: node 2 gets the second first. -/
def wTwo : List Label :=
  [.node [1] (.accept [0] [9] 10), .publish [1] wA, .node [1] (.accept [1] [0] 11), .publish [1] wB, .node [1] (.deliver 0), .node [1] (.deliver 0),
   -- node 2: the second block waits
   .arrive 1, .submit 0 0, .node [2] (.act (.newBlock 0)),
   -- the first block
   .arrive 0, .submit 1 0, .node [2] (.act (.newBlock 0)), .node [2] (.act (.tryBlock 0)), .node [2] (.act (.work 0)), .node [2] (.accept [0] [9] 10),
   .node [2] (.act (.rpcReturn 0 none)), .node [2] (.act (.status 0)), .node [2] (.act (.callerReturns 1)), .finish 1 0, .node [2] (.deliver 0),
   -- now the second
   .node [2] (.act (.tryBlock 0)), .node [2] (.act (.work 0)), .node [2] (.accept [1] [0] 11), .node [2] (.act (.rpcReturn 0 none)),
   .node [2] (.act (.status 0)), .node [2] (.act (.callerReturns 0)), .node [2] (.act (.tryBlock 0)), .node [2] (.act (.work 0)),
   .node [2] (.act (.rpcReturn 0 none)), .node [2] (.act (.status 0)), .node [2] (.deliver 0), .publish [2] wB, .finish 0 0,
   -- node 3
   .arrive 0, .submit 0 0, .node [3] (.act (.newBlock 0)), .node [3] (.act (.tryBlock 0)), .node [3] (.act (.work 0)), .node [3] (.accept [0] [9] 10),
   .node [3] (.act (.rpcReturn 0 none)), .node [3] (.act (.status 0)), .node [3] (.act (.callerReturns 0)), .finish 0 0, .node [3] (.deliver 0),
   .arrive 0, .submit 0 0, .node [3] (.act (.newBlock 0)), .node [3] (.act (.tryBlock 0)), .node [3] (.act (.work 0)), .node [3] (.accept [1] [0] 11),
   .node [3] (.act (.rpcReturn 0 none)), .node [3] (.act (.status 0)), .node [3] (.act (.callerReturns 1)), .finish 0 0, .node [3] (.deliver 0),
   -- node 3 forgets the first block, and somebody brings it up again
   .forget [3] (Flood.msgID wnet [1]), .inject ⟨[4], [3], { data := [1], sender := [1], receivedFrom := [4], key := [1] }⟩, .arrive 0, .submit 0 0,
   .node [3] (.act (.newBlock 0)), .node [3] (.act (.tryBlock 0)), .node [3] (.act (.work 0)), .node [3] (.act (.rpcReturn 0 none)),
   .node [3] (.act (.status 0)), .node [3] (.act (.callerReturns 2)), .finish 0 0, .arrive 0]

def wX (ls : List Label) (bs : List Blk) : State := (checkRun wnet [[1], [2], [3]] bs w0 ls).getD w0

def wbA : Blk := ⟨[0], [9], 10, 0, [], []⟩
def wbB : Blk := ⟨[1], [0], 11, 0, [], []⟩

theorem w_honest (v : Bytes) : wnet.honest v = true ↔ v ∈ [[1], [2], [3]] := by simp [wnet]

theorem w_checked (ls : List Label) (bs : List Blk) (h1 : (checkRun wnet [[1], [2], [3]] bs w0 ls).isSome = true)
    (h2 : [[1], [2], [3]].all (fun v => restB bs ((wX ls bs).node v) && cleanB bs ((wX ls bs).node v)) = true)
    (h3 : (wX ls bs).net.flight = [] ∧ (wX ls bs).net.judging = []) : Checked wnet [[1], [2], [3]] bs w0 ls (wX ls bs) := by
  obtain ⟨X, hX⟩ := Option.isSome_iff_exists.1 h1
  refine ⟨w_honest, by simp, by unfold wX; rw [hX]; rfl, h2, h3, rfl, fun v _ => ⟨9, 0, 0, [([9], 9)], by simp, rfl⟩⟩

def wc (i : Nat) : RawBlock := if i = 0 then wA else wB
def whd (i : Nat) : Header := if i = 0 then ⟨some [9], 10, 0, none⟩ else ⟨some [0], 11, 0, none⟩

theorem w_chain : Chain wnet wc whd 1 := by
  have hcase : ∀ i, i ≤ 1 → i = 0 ∨ i = 1 := fun i hi => by omega
  refine ⟨fun i hi => ?_, fun i hi => ?_, fun i hi => ?_, fun i hi a ha => ?_, fun i hi x h => h⟩
  · rcases hcase i hi with rfl | rfl <;> decide
  · obtain rfl : i = 0 := by omega
    decide
  · rcases hcase i hi with rfl | rfl <;> decide
  · have hne : wB ≠ wA := by decide
    rcases hcase i hi with rfl | rfl
    · simp only [wnet, wc, if_pos] at ha
      split at ha
      · assumption
      · split at ha <;> simp at ha
    · simp only [wnet, wc, if_neg Nat.one_ne_zero, if_neg hne, if_pos] at ha
      split at ha
      · simp at ha
      · split at ha
        · assumption
        · simp at ha

theorem w_short : Chain wnet wc whd 0 :=
  ⟨fun i hi => w_chain.complete i (by omega), fun i hi => absurd hi (by omega), fun i hi => w_chain.decoded i (by omega),
    fun i hi => w_chain.encoded i (by omega), fun i hi => w_chain.hashed i (by omega)⟩

theorem w_blocks (b : Blk) : Blocks wc 1 b ↔ b ∈ [wbA, wbB] := by
  constructor
  · rintro ⟨i, hi, hb⟩
    have : i = 0 ∨ i = 1 := by omega
    rcases this with rfl | rfl
    · cases hb; exact List.mem_cons_self ..
    · cases hb; exact List.mem_cons_of_mem _ (List.mem_singleton_self _)
  · intro h
    rcases List.mem_cons.1 h with rfl | h
    · exact ⟨0, by omega, rfl⟩
    · simp only [List.mem_singleton] at h
      subst h
      exact ⟨1, by omega, rfl⟩

theorem w_block (b : Blk) : Blocks wc 0 b ↔ b ∈ [wbA] := by
  constructor
  · rintro ⟨i, hi, hb⟩
    obtain rfl : i = 0 := by omega
    cases hb; exact List.mem_singleton_self _
  · intro h
    simp only [List.mem_singleton] at h
    subst h
    exact ⟨0, by omega, rfl⟩

theorem w_root (v : Bytes) (_ : v ∈ [[1], [2], [3]]) : ∃ h, (str (whd 0).previous, h) ∈ (w0.node v).accepted ∧ (whd 0).height.toNat ≤ h.toNat + 1 :=
  ⟨9, List.mem_singleton_self _, by decide⟩

theorem w_path (w : Bytes) (hw : w ∈ [[1], [2], [3]]) : Spec.Flood.Path wnet [1] w := by
  have h2 : Spec.Flood.Path wnet [1] [2] := .step [1] [2] .here (by decide) (by decide)
  simp only [List.mem_cons, List.not_mem_nil, or_false] at hw
  rcases hw with rfl | rfl | rfl
  · exact .here
  · exact h2
  · exact .step [2] [3] h2 (by decide) (by decide)

/-- What is checked of the steps of a concrete run. -/
def okLabel (D ids : List Bytes) (n : Net) : Label → Bool
  | .inject p => decide (p.msg.data ∈ D)
  | .publish _ b => decide (n.encode b ∈ D)
  | .node _ (.accept id _ _) => decide (id ∈ ids)
  | .finish _ lib => decide (lib = 0)
  | _ => true

theorem okLabel_of {D ids : List Bytes} {n : Net} {ls : List Label} (h : ls.all (okLabel D ids n) = true) :
    (∀ l ∈ ls, (∀ p, l = .inject p → p.msg.data ∈ D) ∧ (∀ v b, l = .publish v b → n.encode b ∈ D) ∧
      ∀ v id prev h, l = .node v (.accept id prev h) → id ∈ ids) ∧ ∀ l ∈ ls, ∀ i lib, l = .finish i lib → lib = 0 := by
  have all := fun l hl => List.all_eq_true.1 h l hl
  refine ⟨fun l hl => ⟨?_, ?_, ?_⟩, fun l hl => ?_⟩
  · rintro p rfl; simpa [okLabel] using all _ hl
  · rintro v b rfl; simpa [okLabel] using all _ hl
  · rintro v id prev h rfl; simpa [okLabel] using all _ hl
  · rintro i lib rfl; simpa [okLabel] using all _ hl

theorem wTwo_checked : Checked wnet [[1], [2], [3]] [wbA, wbB] w0 wTwo (wX wTwo [wbA, wbB]) :=
  w_checked _ _ (by decide +kernel) (by decide +kernel) (by decide +kernel)

theorem wTwo_labels : wTwo.all (okLabel [[1], [2]] [[0], [1]] wnet) = true := by decide +kernel

theorem wTwo_published : Flood.Obs.published [1] wA ∈ (wX wTwo [wbA, wbB]).net.log ∧ Flood.Obs.published [1] wB ∈ (wX wTwo [wbA, wbB]).net.log := by
  decide +kernel

/-- The assumptions of C144 hold in the network of three nodes, for two blocks, although node 2 gets the second first. -/
example (w : Bytes) (hw : w ∈ [[1], [2], [3]]) (i : Nat) (hi : i ≤ 1) :
    ∃ N, ∀ j, N ≤ j → Link.Has ((stC wnet [[1], [2], [3]] w0 wTwo j).node w) (str (wc i).id) := by
  have hl := okLabel_of wTwo_labels
  refine C144_everywhere_partial _ _ (execC wTwo_checked) (fairC wTwo_checked) (finiteC wTwo_checked _ _ hl.1) ⟨by decide, by decide⟩ wc whd 1 w_chain
    (readyC wTwo_checked w_blocks w_root hl.2) (patientC wTwo_checked (by decide +kernel)) (fun _ => [1]) (fun _ _ _ h => h) (wTwo.length + 0) (fun i hi => ?_)
    i hi w (w_path w hw)
  rw [(stC_tail wTwo_checked 0).1]
  have : i = 0 ∨ i = 1 := by omega
  rcases this with rfl | rfl
  · exact wTwo_published.1
  · exact wTwo_published.2

/-- Node 2 gives up waiting before its chain has accepted the block. -/
def wLate : List Label :=
  [.node [1] (.accept [0] [9] 10), .publish [1] wA, .node [1] (.deliver 0),
   .arrive 0, .submit 0 0, .node [2] (.act (.newBlock 0)), .node [2] (.act (.tryBlock 0)), .node [2] (.act (.work 0)),
   .node [2] (.act (.callerTimesOut 0)), .finish 0 0, .node [2] (.accept [0] [9] 10), .node [2] (.act (.rpcReturn 0 none)),
   .node [2] (.act (.status 0)), .node [2] (.deliver 0), .publish [2] wA, .forget [2] (Flood.msgID wnet [1])]

theorem wLate_checked : Checked wnet [[1], [2], [3]] [wbA] w0 wLate (wX wLate [wbA]) :=
  w_checked _ _ (by decide +kernel) (by decide +kernel) (by decide +kernel)

theorem wLate_labels : wLate.all (okLabel [[1], [2]] [[0], [1]] wnet) = true := by decide +kernel

theorem wLate_end : Flood.Obs.published [1] wA ∈ (wX wLate [wbA]).net.log ∧ Flood.Obs.published [2] wA ∈ (wX wLate [wbA]).net.log ∧
    ¬ Link.Has ((wX wLate [wbA]).node [3]) [0] := by decide +kernel

end Whole

/-- C144, where it fails: if a validation may give up waiting for the applicator, a block may stay away from a node for ever, although its
neighbour has the block on its chain and publishes it: the neighbour has seen the message, refused it, and does not send it; later it forgets the message, but nobody brings it up again. -/
theorem C144_gave_up_refuted :
    ¬ ∀ (n : Net) (o : AppOpts) (σ : Nat → State) (ev : Nat → Label), Exec n o σ ev → Fair n o σ ev → Finite n σ ev → Link.GoodOpts o →
      ∀ (c : Nat → RawBlock) (hd : Nat → Header) (len : Nat), Chain n c hd len → (∀ v, n.honest v = true → Ready n o c hd len σ ev v) →
      ∀ (v : Nat → Bytes) (k : Nat), (∀ i, i < len → ∀ x, Spec.Flood.Path n (v (i + 1)) x → Spec.Flood.Path n (v i) x) →
      (∀ i, i ≤ len → Flood.Obs.published (v i) (c i) ∈ (σ k).net.log) → ∀ i, i ≤ len → ∀ w, Spec.Flood.Path n (v i) w →
      ∃ N, ∀ j, N ≤ j → Link.Has ((σ j).node w) (str (c i).id) := by
  intro hall
  have hl := okLabel_of wLate_labels
  obtain ⟨N, hN⟩ := hall wnet {} _ _ (execC wLate_checked) (fairC wLate_checked) (finiteC wLate_checked _ _ hl.1) ⟨by decide, by decide⟩ wc whd 0 w_short
    (readyC wLate_checked w_block w_root hl.2) (fun _ => [2]) (wLate.length + 0) (fun i hi => absurd hi (by omega))
    (fun i hi => by
      rw [(stC_tail wLate_checked 0).1]
      obtain rfl : i = 0 := by omega
      exact wLate_end.2.1) 0 (Nat.le_refl _) [3] (.step [2] [3] .here (by decide) (by decide))
  have := hN (wLate.length + N) (by omega)
  obtain ⟨d, hd⟩ := (stC_tail wLate_checked N).2.2.1 [3]
  rw [hd] at this
  exact wLate_end.2.2 this

end KP2P

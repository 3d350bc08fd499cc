import Verif.Proof.TxFlood
/-!
# C148: in the end a transaction gets to the chain of every node
-/

namespace KP2P
open KP2P.TxFlood KP2P.Spec.TxFlood
open KP2P.Flood (Packet erase_or)
open KP2P.Spec.TxA (tid Shows answered)

namespace TxFlood

variable {n : Net} {dur : Int} {σ : Nat → State} {ev : Nat → Label}

theorem exec_tr (h : Exec n dur σ ev) (k : Nat) : Tr n (σ k) (ev k) (σ (k + 1)) := tr_of_step _ _ _ (h.steps k)

theorem exec_reach (h : Exec n dur σ ev) (v : Bytes) (k : Nat) : TxA.Reachable dur ((σ k).node v) := by
  induction k with
  | zero =>
    obtain ⟨clock, h0⟩ := h.start
    rw [h0]
    exact ⟨clock v, [], rfl⟩
  | succ k ih => exact reach_next ih (here_step (exec_tr h k) v)

theorem exec_sound (h : Exec n dur σ ev) (k : Nat) : Sound n (σ k) := by
  induction k with
  | zero =>
    obtain ⟨clock, h0⟩ := h.start
    rw [h0]
    exact sound_init clock
  | succ k ih => exact sound_step _ _ _ ih (exec_tr h k)

theorem exec_view (h : Exec n dur σ ev) (v : Bytes) : TxA.Exec (fun k => (σ k).node v) (fun k => here n v (σ k) (ev k)) :=
  fun k => here_step (exec_tr h k) v

theorem exec_mono {α : Type} (f : State → List α) (hf : ∀ s s' l, Tr n s l s' → ∀ x ∈ f s, x ∈ f s') (h : Exec n dur σ ev) {x : α}
    {k j : Nat} (hkj : k ≤ j) (hk : x ∈ f (σ k)) : x ∈ f (σ j) := by
  obtain ⟨i, rfl⟩ := Nat.exists_eq_add_of_le hkj
  induction i with
  | zero => exact hk
  | succ i ih => exact hf _ _ _ (exec_tr h (k + i)) x (ih (by omega))

/-- Calls that are not neglected in the network are not neglected at their node. -/
theorem fair_view (hf : Fair n σ ev) {v : Bytes} (hv : n.honest v = true) (r : Nat) :
    TxA.FairCall (fun k => (σ k).node v) (fun k => here n v (σ k) (ev k)) r := by
  intro k hall
  obtain ⟨j, hj, ha⟩ := hf.calls v hv r k fun m hm => by
    obtain ⟨l, hl, hs⟩ := hall m hm
    refine ⟨.node v l, ⟨rfl, hl⟩, ?_⟩
    have : isCall l = false := by cases l <;> first | rfl | exact hl.elim
    simp only [step, hv, this, Bool.not_true, Bool.or_self, Bool.false_eq_true, if_false, Option.isSome_map]
    exact hs
  refine ⟨j, hj, ?_⟩
  cases hl : ev j with
  | node w l =>
    rw [hl] at ha
    obtain ⟨rfl, h2⟩ := ha
    simp only [here, hl, if_true]
    exact h2
  | _ => rw [hl] at ha; exact ha.elim

/-- Every call of an applicator returns. -/
theorem call_returns (hd : 0 ≤ dur) (h : Exec n dur σ ev) (hf : Fair n σ ev) {v : Bytes} (hv : n.honest v = true) {r : Nat} {t : Tx} {k : Nat}
    (hc : TxA.Obs.call r t ∈ ((σ k).node v).log) : ∃ j, k ≤ j ∧ ∃ e, TxA.Obs.returned r e ∈ ((σ j).node v).log :=
  C96_every_call_returns hd (exec_reach h v 0) (exec_view h v) (fair_view hf hv r) hc

/-- Every validation of the transaction ends. -/
theorem validation_ends (hd : 0 ≤ dur) (h : Exec n dur σ ev) (hf : Fair n σ ev) {t : Tx} (hid : t.id ≠ none)
    (hdec : n.decode (n.encode t) = .ok t) {p : Packet} {k : Nat} (hp : p.msg.data = n.encode t)
    (hin : ∀ j, k ≤ j → p ∈ (σ j).judging) : ∃ j i, k ≤ j ∧ (σ j).judging[i]? = some p ∧ ev j = .finish i := by
  have hh : handed n p = [t] :=
    (handed_iff p t []).2 ⟨by rw [hp]; exact hdec, (exec_sound h k).own p (hin k (Nat.le_refl _)), hid, rfl⟩
  have hdest : n.honest p.dest = true := (exec_sound h k).dest p (hin k (Nat.le_refl _))
  -- the call is made
  have hcall : ∃ j, k ≤ j ∧ (callOf (σ j) p).isSome = true := by
    by_contra hno
    have hno : ∀ j, k ≤ j → callOf (σ j) p = none := by
      intro j hj
      cases hc : callOf (σ j) p with
      | none => rfl
      | some c => exact absurd ⟨j, hj, by rw [hc]; rfl⟩ hno
    obtain ⟨j, i, hj, hi, he⟩ := hf.validation p k fun j hj => by
      obtain ⟨i, hi⟩ := List.mem_iff_getElem?.1 (hin j hj)
      refine ⟨i, hi, Or.inl ?_⟩
      simp [step, hi, hno j hj, hh, TxA.step]
    have hst := exec_tr h j
    have h1 := hno j hj
    have h2 := hno (j + 1) (by omega)
    rcases he with he | he
    · rw [he] at hst
      generalize σ (j + 1) = s' at hst h2
      cases hst with
      | submit i q t' ts x hq hc ht hx =>
        rw [hq] at hi
        cases hi
        exact callOf_none h2 _ (List.mem_append_right _ (List.mem_singleton.2 rfl)) rfl rfl
    · rw [he] at hst
      generalize σ (j + 1) = s' at hst h2
      cases hst with
      | finish i q c e hq hc => rw [hq] at hi; cases hi; rw [h1] at hc; cases hc
      | skip i q hq hc ht => rw [hq] at hi; cases hi; rw [hh] at ht; cases ht
  obtain ⟨j, hj, hc⟩ := hcall
  obtain ⟨c, hc⟩ := Option.isSome_iff_exists.1 hc
  have hkeep : ∀ i, j ≤ i → callOf (σ i) p = some c := by
    intro i hi
    obtain ⟨e, rfl⟩ := Nat.exists_eq_add_of_le hi
    induction e with
    | zero => exact hc
    | succ e ih => exact callOf_step (exec_tr h (j + e)) p c (hin _ (by omega)) (ih (by omega))
  obtain ⟨h1, h2, h3⟩ := callOf_mem hc
  obtain ⟨_, t', _, _, h4⟩ := (exec_sound h j).calls c h1
  rw [h2] at h4
  obtain ⟨m, hm, e, he⟩ := call_returns hd h hf hdest h4
  obtain ⟨i, x, hi, hx, hev⟩ := hf.validation p m fun i hi => by
    obtain ⟨x, hx⟩ := List.mem_iff_getElem?.1 (hin i (by omega))
    refine ⟨x, hx, Or.inr ?_⟩
    have := exec_mono (fun s => (s.node p.dest).log) (fun s s' l h => (node_mono h _).1) h hi he
    obtain ⟨e', he'⟩ := Option.isSome_iff_exists.1 (result_some this)
    simp [step, hx, hkeep i (by omega), he']
  rcases hev with hev | hev
  · have hst := h.steps i
    rw [hev] at hst
    simp [step, hx, hkeep i (by omega)] at hst
  · exact ⟨i, x, by omega, hx, hev⟩

/-- A node whose call for the transaction has returned nil has it in the end. -/
theorem asked_got (hd : 0 ≤ dur) (h : Exec n dur σ ev) (hf : Fair n σ ev) {t : Tx}
    (hw : ∀ k, Welcome n t (σ k)) (hp : ∀ k, Patient n t (σ k)) (ha : ∀ k, Alone n t (σ k)) {x : Bytes} {k : Nat}
    (hx : Asked n t x (σ k)) : ∃ j, k ≤ j ∧ Got x t (σ j) := by
  rcases hx with hx | ⟨hv, r0, h6, h4⟩
  · exact ⟨k, Nat.le_refl _, Or.inl hx⟩
  obtain ⟨now, ls, hrun⟩ := exec_reach h x k
  have hi := TxA.reqInv_run hrun
  have hans := hp k _ hv _ _ h6 h4
  obtain ⟨tx, g1, g2⟩ := hi.ans _ _ hans
  cases hi.calls1 _ _ _ h6 g1
  rcases g2 with g2 | ⟨_, q, hq, q1, q2, q3⟩
  · exact ⟨k, Nat.le_refl _, Or.inr (Or.inl ⟨_, g2⟩)⟩
  obtain ⟨f, hf1, hf2, hf3⟩ := first_pass hd (exec_reach h x k) ⟨q, hq, t, by rw [q2]; simp, rfl⟩
  cases hr : f.req with
  | none => exact ⟨k, Nat.le_refl _, Or.inr (Or.inr ⟨f, hf1, hr, hf2⟩)⟩
  | some r =>
    obtain ⟨tx, e1, e2, _⟩ := passed_reach (exec_reach h x k) f hf1 r hr
    obtain ⟨t', ht', hid'⟩ := hf2
    rw [e1] at ht'
    simp only [List.mem_singleton] at ht'
    subst ht'
    have := ha k _ hv r t' e2 hid'
    subst this
    obtain ⟨m, hm, e, he⟩ := call_returns hd h hf hv e2
    have hcall := exec_mono (fun s => (s.node x).log) (fun s s' l h => (node_mono h _).1) h hm e2
    have hpass := exec_mono (fun s => (s.node x).passes) (fun s s' l h => (node_mono h _).2) h hm hf1
    have hans := hp m _ hv _ _ hcall he
    obtain ⟨tx, e3, _, e5⟩ := passed_reach (exec_reach h x m) f hpass r hr
    rw [e1] at e3
    cases e3
    rcases e5 (hf3 _ e1) with ⟨st, hj⟩ | ⟨e', hv'⟩
    · exfalso
      have hperm := (C65_exactly_once dur _ (exec_reach h x m)).1
      have hnd := hperm.nodup_iff.2 List.nodup_range
      rw [List.nodup_append] at hnd
      have h8 : r ∈ answered ((σ m).node x).log := List.mem_filterMap.2 ⟨_, hans, rfl⟩
      exact hnd.2.2 r (List.mem_append_right _ (List.mem_map.2 ⟨_, hj, rfl⟩)) r h8 rfl
    · cases e' with
      | none => exact ⟨m, hm, Or.inr (Or.inl ⟨r, hv'⟩)⟩
      | some _ => exact absurd hv' (hw m _ hv _ _)

end TxFlood

/-- C148. If a node publishes a transaction that no chain refuses, no other transaction with its id is around, no node is too busy to validate it, and no validation
of it gives up waiting for the applicator, then in the end it is known to the chain of every node to which a way leads: accepted by it, or seen in a block. -/
theorem C148_everywhere_partial {n : Net} {dur : Int} (hd : 0 ≤ dur) {σ : Nat → State} {ev : Nat → Label} (h : Exec n dur σ ev) (hf : Fair n σ ev)
    (t : Tx) (hid : t.id ≠ none) (hdec : n.decode (n.encode t) = .ok t) (hinj : ∀ c, n.encode c = n.encode t → c = t)
    (hcol : ∀ x, n.sha x = n.sha (n.encode t) → x = n.encode t) (hw : ∀ k, Welcome n t (σ k)) (hp : ∀ k, Patient n t (σ k))
    (ha : ∀ k, Alone n t (σ k)) (hr : ∀ k, Room n t (σ k) (ev k)) (v w : Bytes) (k : Nat) (hv : Obs.published v t ∈ (σ k).log) (hpath : Path n v w) :
    ∃ j, k ≤ j ∧ Got w t (σ j) := by
  have hgood : ∀ k, Good n dur t (σ k) := fun k => ⟨fun v => exec_reach h v k, exec_sound h k, hw k, hp k⟩
  have hinv : ∀ k, Spread n t (σ k) := by
    intro k
    induction k with
    | zero =>
      obtain ⟨clock, h0⟩ := h.start
      rw [h0]
      exact ⟨fun _ h => (by rcases h with h | h <;> cases h), fun _ h => (by cases h),
        fun _ h => (by rcases h with h | h <;> cases h), fun _ h => (by rcases h with h | h <;> cases h)⟩
    | succ k ih => exact spread_step hid hdec hinj hcol _ _ _ ih (hgood k) (hr k) (exec_tr h k)
  -- a validation ends
  have settle : ∀ y j, Busy n t y (σ j) → ∃ i, j ≤ i ∧ Took n t y (σ i) ∧ Around n t y (σ i) := by
    intro y j ⟨p, hp', hpd, hpm⟩
    have : ∃ i, j ≤ i ∧ Ends p (σ i) (ev i) := by
      by_contra hno
      have hstay : ∀ i, j ≤ i → p ∈ (σ i).judging := by
        intro i hi
        obtain ⟨e, rfl⟩ := Nat.exists_eq_add_of_le hi
        induction e with
        | zero => exact hp'
        | succ e ihe =>
          have hin := ihe (by omega)
          have hst := exec_tr h (j + e)
          have ha : ¬ Ends p (σ (j + e)) (ev (j + e)) := fun h => hno ⟨j + e, by omega, h⟩
          rw [show j + (e + 1) = j + e + 1 from rfl]
          generalize ev (j + e) = l at ha hst
          generalize σ (j + e + 1) = s' at hst
          cases hst with
          | finish i' q c e hq =>
            rcases erase_or hin hq with h | rfl
            · exact h
            · exact absurd hq ha
          | skip i' q hq =>
            rcases erase_or hin hq with h | rfl
            · exact h
            · exact absurd hq ha
          | arrive => exact List.mem_append_left _ hin
          | _ => exact hin
      obtain ⟨i, x, hi, hx, hev⟩ := validation_ends hd h hf hid hdec hpm hstay
      exact hno ⟨i, hi, by rw [hev]; exact hx⟩
    obtain ⟨i, hi, he⟩ := this
    refine ⟨i + 1, by omega, ?_, ?_⟩
    · rw [← hpd]; exact ended_took hid hdec (hgood i) (exec_tr h i) p he hpm
    · rw [← hpd]; exact ended_around hid hdec (hinv i) (hgood i) (exec_tr h i) p he hpm
  have ready : ∀ y j, Took n t y (σ j) ∨ Busy n t y (σ j) → ∃ i, j ≤ i ∧ Took n t y (σ i) ∧ Around n t y (σ i) := by
    intro y j hj
    rcases hj with hj | hj
    · rcases (hinv j).spread y hj with h | h
      · exact settle y j h
      · exact ⟨j, Nat.le_refl _, hj, h⟩
    · exact settle y j hj
  have hall : ∃ j, k ≤ j ∧ Took n t w (σ j) ∧ Around n t w (σ j) := by
    induction hpath with
    | here => exact ready v k (Or.inl (Or.inl hv))
    | step w y hpw hy hyh ih =>
      obtain ⟨j, hkj, hwj, haj⟩ := ih
      suffices ∃ i, j ≤ i ∧ (Took n t y (σ i) ∨ Busy n t y (σ i)) by
        obtain ⟨i, hi, hs⟩ := this
        obtain ⟨e, he, h⟩ := ready y i hs
        exact ⟨e, by omega, h⟩
      by_contra hno
      have hns : ∀ i, j ≤ i → ¬ (Took n t y (σ i) ∨ Busy n t y (σ i)) := fun i hi h => hno ⟨i, hi, h⟩
      obtain ⟨p, hp', hpd, hpm⟩ := (haj y hy hyh).resolve_left (hns j (Nat.le_refl _))
      have harr : ∀ i, j ≤ i → p ∈ (σ i).flight → ∀ x, ev i = .arrive x → (σ i).flight[x]? ≠ some p := by
        intro i hi hin x hev hx
        have hst := exec_tr h i
        have hn' := hns (i + 1) (by omega)
        have hn := hns i hi
        have hI := hinv i
        rw [hev] at hst
        generalize σ (i + 1) = s' at hst hn'
        cases hst with
        | lost i' q hq hc =>
          rw [hq] at hx; cases hx
          rw [hpd, hpm] at hc
          rcases hc with hc | hc | hc
          · rw [hyh] at hc; cases hc
          · have := (hI.packets p (Or.inl hin) hpm).2 (by rw [hc]; exact hyh)
            rw [hc] at this
            exact hn (Or.inl this)
          · exact hn (hI.seen y hc)
        | full i' q hq hd ho hm hf =>
          rw [hq] at hx; cases hx
          exact hf (hr i _ _ hev hq hpm hd)
        | arrive i' q hq =>
          rw [hq] at hx; cases hx
          exact hn' (Or.inr ⟨p, List.mem_append_right _ (List.mem_singleton_self _), hpd, hpm⟩)
      have hstay : ∀ i, j ≤ i → p ∈ (σ i).flight := by
        intro i hi
        obtain ⟨e, rfl⟩ := Nat.exists_eq_add_of_le hi
        induction e with
        | zero => exact hp'
        | succ e ihe =>
          have hin := ihe (by omega)
          have hst := exec_tr h (j + e)
          have ha := harr (j + e) (by omega) hin
          rw [show j + (e + 1) = j + e + 1 from rfl]
          generalize ev (j + e) = l at ha hst
          generalize σ (j + e + 1) = s' at hst
          cases hst with
          | publish => exact List.mem_append_left _ hin
          | lost i' q hq hc =>
            rcases erase_or hin hq with h | rfl
            · exact h
            · exact absurd hq (ha _ rfl)
          | full i' q hq =>
            rcases erase_or hin hq with h | rfl
            · exact h
            · exact absurd hq (ha _ rfl)
          | arrive i' q hq =>
            rcases erase_or hin hq with h | rfl
            · exact h
            · exact absurd hq (ha _ rfl)
          | inject => exact List.mem_append_left _ hin
          | finish => exact List.mem_append_left _ hin
          | skip => exact List.mem_append_left _ hin
          | _ => exact hin
      obtain ⟨i, x, hi, hev, hx⟩ := hf.delivery p j hstay
      exact harr i hi (hstay i hi) x hev hx
  obtain ⟨j, hkj, ht, _⟩ := hall
  obtain ⟨i, hi, hg⟩ := asked_got hd h hf hw hp ha ((hinv j).done w ht)
  exact ⟨i, by omega, hg⟩

/-! ### Executions that come to rest -/

namespace TxFlood

/-- The states of a run, and then for ever its last. -/
def restAt (n : Net) (s : State) (ls : List Label) (k : Nat) : State := (run n s (ls.take k)).getD s

/-- The steps of a run, and then pauses at `v`. -/
def restEv (v : Bytes) (ls : List Label) (k : Nat) : Label := (ls[k]?).getD (.node v (.tick 0))

theorem run_append (n : Net) (s : State) (as bs : List Label) : run n s (as ++ bs) = (run n s as).bind (run n · bs) := by
  induction as generalizing s with
  | nil => rfl
  | cons a as ih =>
    simp only [run, List.cons_append]
    cases step n s a with
    | none => rfl
    | some s' => exact ih s'

theorem rest_exec {n : Net} {dur : Int} {clock : Bytes → Int} {v : Bytes} (hv : n.honest v = true) {ls : List Label}
    (h : (run n (init dur clock) ls).isSome = true) : Exec n dur (restAt n (init dur clock) ls) (restEv v ls) := by
  have hpre : ∀ k, (run n (init dur clock) (ls.take k)).isSome = true := by
    intro k
    rw [← List.take_append_drop k ls, run_append] at h
    cases hk : run n (init dur clock) (ls.take k) with
    | none => rw [hk] at h; exact h
    | some s => rfl
  refine ⟨⟨clock, rfl⟩, fun k => ?_⟩
  obtain ⟨s, hs⟩ := Option.isSome_iff_exists.1 (hpre k)
  obtain ⟨s', hs'⟩ := Option.isSome_iff_exists.1 (hpre (k + 1))
  simp only [restAt, hs, hs', Option.getD_some, restEv]
  by_cases hk : k < ls.length
  · rw [List.take_succ_eq_append_getElem hk, run_append, hs] at hs'
    simp only [Option.bind_some, run] at hs'
    rw [List.getElem?_eq_getElem hk]
    simp only [Option.getD_some]
    cases hst : step n s ls[k] with
    | none => rw [hst] at hs'; cases hs'
    | some x => rw [hst] at hs'; exact hs'
  · rw [List.take_of_length_le (by omega)] at hs hs'
    rw [hs] at hs'
    cases hs'
    rw [List.getElem?_eq_none (by omega)]
    simp [step, hv, isCall, TxA.step]

theorem rest_end (n : Net) (s : State) (ls : List Label) {k : Nat} (hk : ls.length ≤ k) : restAt n s ls k = restAt n s ls ls.length := by
  unfold restAt
  rw [List.take_of_length_le hk, List.take_length]

theorem rest_fair {n : Net} {s : State} {ls : List Label} {v : Bytes} (h1 : (restAt n s ls ls.length).flight = [])
    (h2 : (restAt n s ls ls.length).judging = [])
    (h3 : ∀ v, n.honest v = true → ((restAt n s ls ls.length).node v).queue = [] ∧ ((restAt n s ls ls.length).node v).jobs = [] ∧
      ((restAt n s ls ls.length).node v).waiting = []) : Fair n (restAt n s ls) (restEv v ls) := by
  refine ⟨fun p k h => ?_, fun p k h => ?_, fun w hw r k h => ?_⟩
  · have := h (max k ls.length) (by omega)
    rw [rest_end n s ls (by omega), h1] at this
    cases this
  · obtain ⟨i, hi, _⟩ := h (max k ls.length) (by omega)
    rw [rest_end n s ls (by omega), h2] at hi
    simp at hi
  · obtain ⟨l, ha, hl⟩ := h (max k ls.length) (by omega)
    rw [rest_end n s ls (by omega)] at ha hl
    obtain ⟨q1, q2, q3⟩ := h3 w hw
    cases l with
    | node x l =>
      obtain ⟨rfl, hb⟩ := ha
      exfalso
      cases l <;> simp [TxA.About, q1, q2] at hb
      subst hb
      simp [step, TxA.step, q3] at hl
    | _ => exact ha.elim

theorem rest_all {n : Net} {s : State} {ls : List Label} {P : State → Prop}
    (h : ∀ k ∈ List.range (ls.length + 1), P (restAt n s ls k)) (k : Nat) : P (restAt n s ls k) := by
  by_cases hk : k ≤ ls.length
  · exact h k (List.mem_range.2 (by omega))
  · rw [rest_end n s ls (by omega)]
    exact h _ (List.mem_range.2 (by omega))

end TxFlood

/-! ### A network of three nodes in a row, and somebody else -/

namespace TxFlood

def tA : Bytes := [1]
def tB : Bytes := [2]
def tC : Bytes := [3]
def tE : Bytes := [9]

/-- A transaction, and another with the same id. -/
def tGood : Tx := { id := some [7], rest := [1] }
def tForged : Tx := { id := some [7], rest := [2] }

/-- `[1]` and `[3]` encode the transaction, `[2]` the other. -/
def tNet : Net where
  honest v := decide (v = tA ∨ v = tB ∨ v = tC)
  adj v := if v = tA then [tB] else if v = tB then [tA, tC] else if v = tC then [tB] else []
  encode t := if t = tGood then [1] else if t = tForged then [2] else [0]
  decode d := if d = [1] ∨ d = [3] then .ok tGood else if d = [2] then .ok tForged else .error (.other 0)
  sha := id
  room := 1024

theorem tNet_honest {v : Bytes} (h : tNet.honest v = true) : v ∈ [tA, tB, tC] := by
  simpa [tNet] using h

theorem tNet_decode : tNet.decode (tNet.encode tGood) = .ok tGood := by decide +kernel

theorem tNet_inj (c : Tx) (h : tNet.encode c = tNet.encode tGood) : c = tGood := by
  simp only [tNet, if_true] at h
  split at h
  · assumption
  · split at h <;> cases h

theorem tNet_path : Path tNet tA tC :=
  .step tB tC (.step tA tB .here (by decide) (by decide)) (by decide) (by decide)

def okWelcome (s : State) : Bool := [tA, tB, tC].all fun v => (s.node v).log.all fun
  | .verdict _ t (some _) => decide (t ≠ tGood)
  | _ => true

def okPatient (s : State) : Bool := [tA, tB, tC].all fun v => (s.node v).log.all fun
  | .returned r e => decide (TxA.Obs.call r tGood ∈ (s.node v).log → TxA.Obs.answer r e ∈ (s.node v).log)
  | _ => true

def okAlone (s : State) : Bool := [tA, tB, tC].all fun v => (s.node v).log.all fun
  | .call _ t => decide (tid t = tid tGood → t = tGood)
  | _ => true

theorem welcome_of {s : State} (h : okWelcome s = true) : Welcome tNet tGood s := by
  intro v hv r e hm
  have := List.all_eq_true.1 (List.all_eq_true.1 h v (tNet_honest hv)) _ hm
  simp at this

theorem patient_of {s : State} (h : okPatient s = true) : Patient tNet tGood s := by
  intro v hv r e hc hm
  have := List.all_eq_true.1 (List.all_eq_true.1 h v (tNet_honest hv)) _ hm
  exact (of_decide_eq_true this) hc

theorem alone_of {s : State} (h : okAlone s = true) : Alone tNet tGood s := by
  intro v hv r t hc hi
  have := List.all_eq_true.1 (List.all_eq_true.1 h v (tNet_honest hv)) _ hc
  exact (of_decide_eq_true this) hi

def tStart : State := init 10 fun _ => 0

/-- A foreign message with this contents. -/
def tFrom (dest data : Bytes) : Packet := ⟨tE, dest, { data := data, sender := tE, receivedFrom := tE, key := tE }⟩

/-- Node `v` takes call `r` up, and its chain answers. -/
def tAsk (v : Bytes) (r : Nat) (e : Option Err) : List Label :=
  [.submit 0, .node v (.work 0), .node v (.submit 0), .node v (.rpcReturn 0 e), .node v (.callerReturns r), .finish 0]

def atRest (s : State) : Bool := s.flight.isEmpty && s.judging.isEmpty &&
  [tA, tB, tC].all fun v => (s.node v).queue.isEmpty && (s.node v).jobs.isEmpty && (s.node v).waiting.isEmpty

theorem fair_of {ls : List Label} (h : atRest (restAt tNet tStart ls ls.length) = true) :
    Fair tNet (restAt tNet tStart ls) (restEv tA ls) := by
  simp only [atRest, Bool.and_eq_true, List.isEmpty_iff] at h
  refine rest_fair h.1.1 h.1.2 fun v hv => ?_
  have := List.all_eq_true.1 h.2 v (tNet_honest hv)
  simp only [Bool.and_eq_true, List.isEmpty_iff] at this
  exact ⟨this.1.1, this.1.2, this.2⟩

theorem all_of {ls : List Label} {f : State → Bool} {P : State → Prop} (hf : ∀ {s}, f s = true → P s)
    (h : (List.range (ls.length + 1)).all (fun k => f (restAt tNet tStart ls k)) = true) (k : Nat) : P (restAt tNet tStart ls k) :=
  rest_all (fun k hk => hf (List.all_eq_true.1 h k hk)) k

theorem room_of {ls : List Label} (h : (List.range (ls.length + 1)).all (fun k => decide ((restAt tNet tStart ls k).judging.length < 1024)) = true)
    (k : Nat) : Room tNet tGood (restAt tNet tStart ls k) (restEv tA ls k) := by
  intro i p _ _ _ _
  exact Nat.lt_of_le_of_lt List.countP_le_length
    (all_of (f := fun s => decide (s.judging.length < 1024)) (P := fun s => s.judging.length < 1024) (fun h => by simpa using h) h k)

/-- A's message with this contents, passed on by somebody else. -/
def tRelay (dest data : Bytes) : Packet := ⟨tE, dest, { data := data, sender := tA, receivedFrom := tE, key := tA }⟩

/-- Somebody sends the transaction to B in another encoding; A publishes it; at B the second copy finds it in the cache. Later B forgets that it has
seen A's message, and somebody sends it to B again. -/
def tRun : List Label :=
  [.inject (tFrom tB [3]), .arrive 0] ++ [.submit 0, .node tB (.work 0), .publish tA tGood, .arrive 0, .submit 1, .node tB (.work 0),
    .node tB (.callerReturns 1), .finish 1, .node tB (.submit 0), .node tB (.rpcReturn 0 none), .node tB (.callerReturns 0), .finish 0,
    .arrive 0] ++ tAsk tC 0 none ++ [.arrive 0] ++ tAsk tA 0 none ++ [.arrive 0, .submit 0, .node tC (.work 0), .node tC (.callerReturns 1),
    .finish 0] ++ [.forget tB (msgID tNet [1]), .inject (tRelay tB [1]), .arrive 0, .submit 0, .node tB (.work 0), .node tB (.callerReturns 2), .finish 0,
    .arrive 0]

end TxFlood

/-- The hypotheses of C148 hold in this execution. -/
example : ∃ σ ev, Exec tNet 10 σ ev ∧ Fair tNet σ ev ∧ (∀ k, Welcome tNet tGood (σ k)) ∧ (∀ k, Patient tNet tGood (σ k)) ∧
    (∀ k, Alone tNet tGood (σ k)) ∧ (∀ k, Room tNet tGood (σ k) (ev k)) ∧ (∃ k, Obs.published tA tGood ∈ (σ k).log) ∧ Path tNet tA tC ∧ tGood.id ≠ none ∧
    tNet.decode (tNet.encode tGood) = .ok tGood ∧ (∀ c, tNet.encode c = tNet.encode tGood → c = tGood) ∧
    ∀ x, tNet.sha x = tNet.sha (tNet.encode tGood) → x = tNet.encode tGood :=
  ⟨_, _, rest_exec (v := tA) (ls := tRun) (clock := fun _ => 0) (by decide) (by decide +kernel), fair_of (by decide +kernel),
    all_of welcome_of (by decide +kernel), all_of patient_of (by decide +kernel), all_of alone_of (by decide +kernel),
    room_of (by decide +kernel), ⟨tRun.length, by decide +kernel⟩, tNet_path, by decide, tNet_decode, tNet_inj, fun _ h => h⟩

namespace TxFlood

/-- Somebody sends the forged transaction to B and to C, whose chains refuse it; then A publishes the genuine one. -/
def tForgery : List Label :=
  [.inject (tFrom tB [2]), .arrive 0] ++ tAsk tB 0 (some (.other 1)) ++ [.inject (tFrom tC [2]), .arrive 0] ++ tAsk tC 0 (some (.other 1)) ++
  [.publish tA tGood, .arrive 0, .submit 0, .node tB (.work 0), .node tB (.callerReturns 1), .finish 0,
    .arrive 0, .submit 0, .node tC (.work 0), .node tC (.callerReturns 1), .finish 0]

/-- The chain of B takes its time over the transaction, and the validation gives up. -/
def tSlow : List Label :=
  [.publish tA tGood, .arrive 0, .submit 0, .node tB (.work 0), .node tB (.submit 0), .node tB (.tick 5), .node tB (.callerGivesUp 0 (.other 2)),
    .finish 0, .node tB (.rpcReturn 0 none)]

/-- C148's conclusion does not hold at `v`. -/
def hasNot (v : Bytes) (s : State) : Bool :=
  decide (Obs.published v tGood ∉ s.log) && ((s.node v).log.all fun
    | .verdict _ t none => decide (t ≠ tGood)
    | _ => true) && (s.node v).passes.all fun p => p.req.isSome

theorem not_got {v : Bytes} {s : State} (h : hasNot v s = true) : ¬ Got v tGood s := by
  simp only [hasNot, Bool.and_eq_true, decide_eq_true_eq] at h
  rintro (h1 | ⟨r, h1⟩ | ⟨p, h1, h2, _⟩)
  · exact h.1.1 h1
  · have := List.all_eq_true.1 h.1.2 _ h1
    simp at this
  · have := List.all_eq_true.1 h.2 _ h1
    rw [h2] at this
    cases this

end TxFlood

/-- C148 is false if another transaction with the same id can be around: nodes that have been sent a forged one, and whose chains have refused it, accept the
genuine one without submitting it, and pass it on; their chains never get it. -/
theorem C148_forged_refuted : ∃ (n : Net) (σ : Nat → State) (ev : Nat → Label) (t : Tx) (a b c : Bytes), Exec n 10 σ ev ∧ Fair n σ ev ∧
    t.id ≠ none ∧ n.decode (n.encode t) = .ok t ∧ (∀ x, n.encode x = n.encode t → x = t) ∧
    (∀ x, n.sha x = n.sha (n.encode t) → x = n.encode t) ∧ (∀ k, Welcome n t (σ k)) ∧ (∀ k, Patient n t (σ k)) ∧
    (∀ k, Room n t (σ k) (ev k)) ∧ (∃ k, Obs.published a t ∈ (σ k).log ∧ Obs.judged b (n.encode t) true ∈ (σ k).log ∧ Obs.judged c (n.encode t) true ∈ (σ k).log) ∧
    Path n a b ∧ Path n a c ∧ ∀ k, ¬ Got b t (σ k) ∧ ¬ Got c t (σ k) :=
  ⟨tNet, _, _, tGood, tA, tB, tC, rest_exec (v := tA) (ls := tForgery) (clock := fun _ => 0) (by decide) (by decide +kernel),
    fair_of (by decide +kernel), by decide, tNet_decode, tNet_inj, fun _ h => h, all_of welcome_of (by decide +kernel),
    all_of patient_of (by decide +kernel), room_of (by decide +kernel), ⟨tForgery.length, by decide +kernel, by decide +kernel, by decide +kernel⟩,
    .step tA tB .here (by decide) (by decide), tNet_path,
    fun k => ⟨all_of (f := hasNot tB) (P := fun s => ¬ Got tB tGood s) not_got (by decide +kernel) k,
      all_of (f := hasNot tC) (P := fun s => ¬ Got tC tGood s) not_got (by decide +kernel) k⟩⟩

/-- C148 is false if validations can give up waiting for the applicator: then the nodes behind are not sent the transaction, though the chain accepts it. -/
theorem C148_gave_up_refuted : ∃ (n : Net) (σ : Nat → State) (ev : Nat → Label) (t : Tx) (a b c : Bytes), Exec n 10 σ ev ∧ Fair n σ ev ∧
    t.id ≠ none ∧ n.decode (n.encode t) = .ok t ∧ (∀ x, n.encode x = n.encode t → x = t) ∧
    (∀ x, n.sha x = n.sha (n.encode t) → x = n.encode t) ∧ (∀ k, Welcome n t (σ k)) ∧ (∀ k, Alone n t (σ k)) ∧
    (∀ k, Room n t (σ k) (ev k)) ∧ (∃ k, Obs.published a t ∈ (σ k).log ∧ Got b t (σ k)) ∧ Path n a c ∧ ∀ k, ¬ Got c t (σ k) :=
  ⟨tNet, _, _, tGood, tA, tB, tC, rest_exec (v := tA) (ls := tSlow) (clock := fun _ => 0) (by decide) (by decide +kernel),
    fair_of (by decide +kernel), by decide, tNet_decode, tNet_inj, fun _ h => h, all_of welcome_of (by decide +kernel),
    all_of alone_of (by decide +kernel), room_of (by decide +kernel), ⟨tSlow.length, by decide +kernel, Or.inr (Or.inl ⟨0, by decide +kernel⟩)⟩, tNet_path,
    all_of (f := hasNot tC) (P := fun s => ¬ Got tC tGood s) not_got (by decide +kernel)⟩

end KP2P

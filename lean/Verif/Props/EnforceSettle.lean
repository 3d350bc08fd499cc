import Verif.Proof.Fair
import Verif.Props.EnforceTable
/-!
# C102, counted; C103 under fairness: the table of peers settles
-/

namespace KP2P
open KP2P.Enforce

variable {d : Spec.Decay} {o : ErrOpts}

/-- C102. Every connection that was tried is decided upon at most once: at every moment those refused or established, those between
the two questions to the gater and those allowed but not yet established are all connections tried so far, each once. -/
theorem C102_decided_once (s : Enforce.State) (h : Enforce.Reachable d o s) :
    (s.knocking.map Conn.num ++ s.upgrading.map Conn.num ++ decided s.log).Perm (List.range s.next) := by
  obtain ⟨t, ls, hr⟩ := h
  refine Enforce.run_ind (d := d) (o := o) (P := fun s =>
      (s.knocking.map Conn.num ++ s.upgrading.map Conn.num ++ decided s.log).Perm (List.range s.next))
    ?_ ls _ s (by simp [Enforce.init, decided]) hr
  intro s l s' hp hs
  have erase : ∀ (l : List Conn) (i : Nat) (c : Conn) (rest : List Nat), l[i]? = some c →
      ((l.eraseIdx i).map Conn.num ++ c.num :: rest).Perm (l.map Conn.num ++ rest) := by
    intro l i c rest hi
    obtain ⟨hlt, hc⟩ := List.getElem?_eq_some_iff.1 hi
    have hpm := (List.getElem_cons_eraseIdx_perm hlt).map Conn.num
    rw [List.map_cons, hc] at hpm
    exact List.perm_middle.trans (hpm.append_right rest)
  cases tr_of_step _ _ _ hs with
  | knockIn p a h =>
    simp only [List.map_append, List.map_cons, List.map_nil, List.range_succ, List.append_assoc, List.singleton_append] at hp ⊢
    exact List.perm_middle.trans ((hp.cons _).trans (List.perm_append_singleton _ _).symm)
  | knockOut p a h =>
    have e : decided (.refused ⟨p, a, s.next⟩ s.now :: s.log) = s.next :: decided s.log := rfl
    rw [e, List.range_succ]
    exact List.perm_middle.trans ((hp.cons _).trans (List.perm_append_singleton _ _).symm)
  | secureIn i c hi h =>
    have e : decided (.allowed c s.now :: s.log) = decided s.log := rfl
    simp only [e, List.map_append, List.map_cons, List.map_nil, List.append_assoc, List.singleton_append] at hp ⊢
    exact ((List.perm_middle.append_left _).trans (erase _ i c _ hi)).trans hp
  | establish i c hi =>
    have e : decided (.admitted c s.now :: s.log) = c.num :: decided s.log := rfl
    rw [e]
    rw [List.append_assoc] at hp ⊢
    exact ((erase _ i c _ hi).append_left _).trans hp
  | secureOut i c hi h =>
    have e : decided (.refused c s.now :: s.log) = c.num :: decided s.log := rfl
    rw [e]
    rw [List.append_assoc] at hp ⊢
    exact ((List.perm_middle.append_left _).trans (erase _ i c _ hi)).trans hp
  | note i e hi he => exact hp
  | report c e hc => exact hp
  | charge i c e a hi ha p hp' => exact hp
  | ignore i c e hi ha => exact hp
  | close i p hi =>
    have e : decided (((s.live.filter fun c => c.peer == p).map Obs.closed).reverse ++ s.log) = decided s.log := by
      have : decided ((s.live.filter fun c => c.peer == p).map Obs.closed).reverse = [] := by
        unfold decided
        rw [List.filterMap_eq_nil_iff]
        intro x hx
        simp only [List.mem_reverse, List.mem_map] at hx
        obtain ⟨_, _, rfl⟩ := hx
        rfl
      unfold decided at this ⊢
      rw [List.filterMap_append, this, List.nil_append]
    show (s.knocking.map Conn.num ++ s.upgrading.map Conn.num ++ decided _).Perm _
    rw [e]
    exact hp
  | hangUp c hc => exact hp
  | query a => exact hp
  | tick n => exact hp

/-- C103. The manager can receive a notification whenever there is one. -/
theorem C103_can_receive (s : Enforce.State) (hn : s.notes ≠ []) : ∃ i, (Enforce.step d o s (.note i)).isSome = true := by
  have take : ∀ e ∈ s.notes, early s e = false → ∃ i, (Enforce.step d o s (.note i)).isSome = true := by
    intro e he hf
    obtain ⟨i, hi, hg⟩ := List.getElem_of_mem he
    refine ⟨i, ?_⟩
    simp [Enforce.step, List.getElem?_eq_getElem hi, hg, hf]
  obtain ⟨e, he⟩ := List.exists_mem_of_ne_nil _ hn
  cases hx : early s e with
  | false => exact take e he hx
  | true =>
    cases e with
    | disconnected c => exact take (.connected c) (by simpa [early] using hx) rfl
    | connected c => simp [early] at hx
    | shutdown => simp [early] at hx

/-- C103. When connections neither come nor go any more, all notifications are handled in the end; from then on the table is
right (see `C103_no_ghosts` and `C103_tracked`). -/
theorem C103_settles {σ : Nat → Enforce.State} {ev : Nat → Enforce.Label} (hx : Exec d o σ ev) (hf : FairNotes d o σ ev)
    (n : Nat) (hq : ∀ k, n ≤ k → NoChange (ev k)) : ∃ m, n ≤ m ∧ ∀ k, m ≤ k → (σ k).notes = [] := by
  have hstep : ∀ k, n ≤ k → (σ (k + 1)).notes.length ≤ (σ k).notes.length ∧
      ((∃ i, ev k = .note i) → (σ (k + 1)).notes.length < (σ k).notes.length) := by
    intro k hk
    have h1 := hx k
    have h2 := hq k hk
    generalize ev k = l at h1 h2
    generalize σ (k + 1) = s' at h1
    cases tr_of_step _ _ _ h1 with
    | note i e hi he =>
      have := (List.getElem?_eq_some_iff.1 hi).1
      have : ((σ k).notes.eraseIdx i).length < (σ k).notes.length := by
        rw [List.length_eraseIdx_of_lt this]; omega
      exact ⟨Nat.le_of_lt this, fun _ => this⟩
    | establish i c hi => exact h2.elim
    | close i p hi => exact h2.elim
    | hangUp c hc => exact h2.elim
    | _ => exact ⟨Nat.le_refl _, fun ⟨i, h⟩ => by cases h⟩
  let τ := fun k => σ (n + k)
  obtain ⟨m, _, hm⟩ := leads_to (σ := τ) (ev := fun k => ev (n + k)) (fun s => s.notes.length) (fun _ => True)
    (fun s => s.notes = []) (fun _ l => ∃ i, l = .note i)
    (fun k _ _ => Or.inr ⟨trivial, hstep (n + k) (by omega)⟩)
    (fun k hall => by
      obtain ⟨m, hm, hi⟩ := hf (n + k) fun m hm => by
        obtain ⟨j, rfl⟩ := Nat.exists_eq_add_of_le (show n ≤ m by omega)
        exact C103_can_receive _ (hall j (by omega)).2
      obtain ⟨j, rfl⟩ := Nat.exists_eq_add_of_le (show n ≤ m by omega)
      exact ⟨j, by omega, hi⟩) 0 trivial
  refine ⟨n + m, by omega, fun k hk => ?_⟩
  obtain ⟨j, rfl⟩ := Nat.exists_eq_add_of_le hk
  clear hk
  induction j with
  | zero => exact hm
  | succ j ih =>
    have := (hstep (n + m + j) (by omega)).1
    rw [ih] at this
    exact List.length_eq_zero_iff.1 (Nat.le_zero.1 this)

/-! Two peers knock; one is let in, and then nothing happens but that time passes. -/

private def sevs : List Enforce.Label := [.knock [1] ⟨[10], []⟩, .knock [2] ⟨[20], []⟩, .secure 0, .establish 0, .note 0]
private def sev (n : Nat) : Enforce.Label := (sevs[n]?).getD (.tick 0)
private def sst : Nat → Enforce.State
  | 0 => Enforce.init 0
  | n + 1 => (Enforce.step (fun _ s => s) .default (sst n) (sev n)).getD (Enforce.init 0)

private theorem sst_end (k : Nat) : sst (5 + k) = sst 5 := by
  induction k with
  | zero => rfl
  | succ k ih =>
    have he : sev (5 + k) = .tick 0 := by simp [sev, sevs]
    have : sst (5 + (k + 1)) = (Enforce.step (fun _ s => s) .default (sst (5 + k)) (sev (5 + k))).getD (Enforce.init 0) := rfl
    rw [this, he, ih]
    simp [Enforce.step]

example : Exec (fun _ s => s) .default sst sev ∧ FairNotes (fun _ s => s) .default sst sev ∧
    (∀ k, 4 ≤ k → NoChange (sev k)) ∧ (sst 4).notes ≠ [] ∧ decided (sst 4).log = [0] ∧ (sst 4).knocking.map Conn.num = [1] := by
  refine ⟨fun n => ?_, fun n hall => ?_, ?_, ?_, ?_, ?_⟩
  · by_cases hn : n < 5
    · match n, hn with
      | 0, _ => rfl
      | 1, _ => rfl
      | 2, _ => rfl
      | 3, _ => rfl
      | 4, _ => rfl
    · obtain ⟨k, rfl⟩ := Nat.exists_eq_add_of_le (Nat.le_of_not_lt hn)
      have he : sev (5 + k) = .tick 0 := by simp [sev, sevs]
      have h1 := sst_end (k + 1)
      rw [sst_end k, he, show 5 + k + 1 = 5 + (k + 1) from rfl, h1]
      simp [Enforce.step]
  · obtain ⟨i, hi⟩ := hall (5 + n) (by omega)
    rw [sst_end] at hi
    have : (sst 5).notes = [] := by decide +kernel
    simp [Enforce.step, this] at hi
  · intro k hk
    match k, hk with
    | 4, _ => trivial
    | k + 5, _ => simp [sev, sevs, NoChange]
  · decide +kernel
  · decide +kernel
  · decide +kernel

end KP2P

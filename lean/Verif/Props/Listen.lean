import Verif.Model.Listen
import Verif.Props.Wiring
import Mathlib.Data.List.Basic
import Mathlib.Tactic.ByContra
/-!
# C131: what the node's own services announce is taken up
-/

namespace KP2P
open KP2P.Listen

private theorem l_app (room : Nat) (al : Bool) (s : Listen.State) (a b : List Listen.Label) :
    Listen.run room al s (a ++ b) = (Listen.run room al s a).bind fun s' => Listen.run room al s' b := by
  induction a generalizing s with
  | nil => rfl
  | cons l a ih =>
    simp only [List.cons_append, Listen.run]
    cases Listen.step room al s l with
    | none => rfl
    | some s' => exact ih s'

private theorem l_ind {room : Nat} {al : Bool} {P : Listen.State → Prop}
    (hstep : ∀ s l s', P s → Listen.step room al s l = some s' → P s') :
    ∀ (ls : List Listen.Label) (s s' : Listen.State), P s → Listen.run room al s ls = some s' → P s' := by
  intro ls
  induction ls with
  | nil => intro s s' h hr; cases hr; exact h
  | cons l ls ih =>
    intro s s' h hr
    simp only [Listen.run] at hr
    split at hr
    · rename_i s1 h1; exact ih s1 s' (hstep s l s1 h h1) hr
    · cases hr

/-! What a step does, by cases. -/

private theorem topic_set (s : Listen.State) (b b' : Bool) (t : Topic) :
    (s.setTopic b t).topic b' = if b' = b then t else s.topic b' := by
  cases b <;> cases b' <;> rfl
private theorem set_w (s : Listen.State) (b : Bool) (t : Topic) : (s.setTopic b t).w = s.w := by cases b <;> rfl
private theorem set_loop (s : Listen.State) (b : Bool) (t : Topic) : (s.setTopic b t).loop = s.loop := by cases b <;> rfl
private theorem set_queue (s : Listen.State) (b : Bool) (t : Topic) : (s.setTopic b t).queue = s.queue := by cases b <;> rfl
private theorem set_relayed (s : Listen.State) (b : Bool) (t : Topic) : (s.setTopic b t).relayed = s.relayed := by
  cases b <;> rfl
private theorem set_calls (s : Listen.State) (b : Bool) (t : Topic) : (s.setTopic b t).calls = s.calls := by cases b <;> rfl
private theorem set_returned (s : Listen.State) (b : Bool) (t : Topic) : (s.setTopic b t).returned = s.returned := by
  cases b <;> rfl
private theorem set_next (s : Listen.State) (b : Bool) (t : Topic) : (s.setTopic b t).next = s.next := by cases b <;> rfl

/-- The error handler and the manager take their own steps. -/
private theorem w_step (room : Nat) (al : Bool) (s : Listen.State) (l : Listen.Label) (s' : Listen.State)
    (hs : Listen.step room al s l = some s') :
    s'.w = s.w ∨ (∃ wl, l = .other wl ∧ Wiring.step s.w wl = some s'.w) ∨
      ∃ q, l = .score q ∧ Wiring.step s.w (.queryPeer q) = some s'.w := by
  cases l <;> simp only [Listen.step] at hs
  case other wl =>
    split at hs
    · split at hs
      · rename_i h; cases hs; exact Or.inr (Or.inl ⟨wl, rfl, h⟩)
      · cases hs
    · cases hs
  case score q =>
    split at hs
    · split at hs
      · rename_i h; cases hs; exact Or.inr (Or.inr ⟨q, rfl, h⟩)
      · cases hs
    · cases hs
  case scored =>
    split at hs
    · split at hs
      · cases hs; exact Or.inl rfl
      · cases hs
    · cases hs
  all_goals
    (repeat' split at hs) <;> first | cases hs | skip
  all_goals first
    | exact Or.inl rfl
    | exact Or.inl (set_w ..)

private theorem w_reach {room : Nat} {al : Bool} {s : Listen.State} (h : Listen.Reachable room al s) :
    Wiring.Reachable s.w := by
  obtain ⟨ls, hr⟩ := h
  refine l_ind (P := fun s => Wiring.Reachable s.w) ?_ ls _ s ⟨[], rfl⟩ hr
  intro s l s' ⟨ws, hw⟩ hs
  have app : ∀ (ws : List Wiring.Label) (a b : Wiring.State) (l : Wiring.Label) (c : Wiring.State),
      Wiring.run a ws = some b → Wiring.step b l = some c → Wiring.run a (ws ++ [l]) = some c := by
    intro ws
    induction ws with
    | nil => intro a b l c h1 h2; cases h1; simp [Wiring.run, h2]
    | cons x ws ih =>
      intro a b l c h1 h2
      simp only [Wiring.run, List.cons_append] at h1 ⊢
      split at h1
      · exact ih _ b l c h1 h2
      · cases h1
  rcases w_step room al s l s' hs with h | ⟨wl, _, h⟩ | ⟨q, _, h⟩
  · exact ⟨ws, by rw [h]; exact hw⟩
  · exact ⟨_, app ws _ _ _ _ hw h⟩
  · exact ⟨_, app ws _ _ _ _ hw h⟩

/-- A locked topic has a call that holds the lock; the loop's query is pending or answered; calls that are known stay so. -/
private structure LInv (s : Listen.State) : Prop where
  busy : ∀ b, (s.topic b).busy = true → ∃ c ∈ s.calls, c.blocks = b ∧ c.inside = true
  loop : ∀ q, s.loop = some q → q ∈ s.w.queries.map Prod.fst ∨ q ∈ s.w.answered
  /-- what is locked is not idle -/
  kind : ∀ c ∈ s.calls, c.inside = true → c.kind = .publish true ∨ c.kind = .start ∨ c.kind = .stop
  one : ∀ c ∈ s.calls, ∀ c' ∈ s.calls, c.id = c'.id → c = c'
  nodup : s.calls.Nodup
  lt : ∀ c ∈ s.calls, c.id < s.next
  lock1 : ∀ c ∈ s.calls, ∀ c' ∈ s.calls, c.inside = true → c'.inside = true → c.blocks = c'.blocks → c = c'
  lock2 : ∀ c ∈ s.calls, c.inside = true → (s.topic c.blocks).busy = true

private theorem mem_erase' {l : List Call} (hn : l.Nodup) {a c : Call} : a ∈ l.erase c ↔ a ≠ c ∧ a ∈ l := hn.mem_erase_iff

private theorem linv_lock {room : Nat} {al : Bool} {s s' : Listen.State} {c : Call} (h : LInv s)
    (hs : Listen.step room al s (.lock c) = some s') : LInv s' := by
  simp only [Listen.step] at hs
  split at hs
  · rename_i hc
    obtain ⟨hm, hi, hb⟩ := hc
    split at hs
    · cases hs
      refine ⟨?_, h.loop, ?_, ?_, h.nodup.erase _, ?_, ?_, ?_⟩
      · intro b hb'
        obtain ⟨d, hd, h1, h2⟩ := h.busy b hb'
        exact ⟨d, (mem_erase' h.nodup).2 ⟨fun e => (by rw [e, hi] at h2; cases h2), hd⟩, h1, h2⟩
      · exact fun d hd => h.kind d (List.mem_of_mem_erase hd)
      · exact fun d hd d' hd' => h.one d (List.mem_of_mem_erase hd) d' (List.mem_of_mem_erase hd')
      · exact fun d hd => h.lt d (List.mem_of_mem_erase hd)
      · exact fun d hd d' hd' => h.lock1 d (List.mem_of_mem_erase hd) d' (List.mem_of_mem_erase hd')
      · exact fun d hd => h.lock2 d (List.mem_of_mem_erase hd)
    · rename_i hidle
      cases hs
      have hold : ∀ d ∈ s.calls, d.inside = true → d.blocks ≠ c.blocks := by
        intro d hd h1 h2
        have := h.lock2 d hd h1
        rw [h2, hb] at this; cases this
      have hmem : ∀ d, d ∈ ({ c with inside := true } : Call) :: s.calls.erase c →
          d = { c with inside := true } ∨ (d ≠ c ∧ d ∈ s.calls) := by
        intro d hd
        rcases List.mem_cons.1 hd with hd | hd
        · exact Or.inl hd
        · exact Or.inr ((mem_erase' h.nodup).1 hd)
      refine ⟨?_, ?_, ?_, ?_, ?_, ?_, ?_, ?_⟩
      · intro b hb'
        rw [topic_set] at hb'
        rw [set_calls]
        split at hb'
        · rename_i e
          exact ⟨_, List.mem_cons_self .., e.symm, rfl⟩
        · obtain ⟨d, hd, h1, h2⟩ := h.busy b hb'
          exact ⟨d, List.mem_cons_of_mem _ ((mem_erase' h.nodup).2 ⟨fun e => (by rw [e, hi] at h2; cases h2), hd⟩), h1, h2⟩
      · rw [set_loop, set_w]; exact h.loop
      · rw [set_calls]
        intro d hd h1
        rcases hmem d hd with e | ⟨_, hd⟩
        · subst e
          revert hidle
          rcases hk : c.kind with f | _ | _
          · cases f
            · simp [idle]
            · intro _; exact Or.inl rfl
          · exact fun _ => Or.inr (Or.inl rfl)
          · exact fun _ => Or.inr (Or.inr rfl)
        · exact h.kind d hd h1
      · rw [set_calls]
        intro d hd d' hd' e
        rcases hmem d hd with e1 | ⟨n1, h1⟩ <;> rcases hmem d' hd' with e2 | ⟨n2, h2⟩
        · rw [e1, e2]
        · subst e1; exact absurd (h.one d' h2 c hm e.symm) n2
        · subst e2; exact absurd (h.one d h1 c hm e) n1
        · exact h.one d h1 d' h2 e
      · rw [set_calls]
        refine List.nodup_cons.2 ⟨?_, h.nodup.erase _⟩
        intro hx
        have := (mem_erase' h.nodup).1 hx
        exact hold _ this.2 rfl rfl
      · rw [set_calls, set_next]
        intro d hd
        rcases hmem d hd with e1 | ⟨n1, h1⟩
        · subst e1; exact h.lt c hm
        · exact h.lt d h1
      · rw [set_calls]
        intro d hd d' hd' i1 i2 e
        rcases hmem d hd with e1 | ⟨n1, h1⟩ <;> rcases hmem d' hd' with e2 | ⟨n2, h2⟩
        · rw [e1, e2]
        · subst e1; exact absurd e.symm (hold d' h2 i2)
        · subst e2; exact absurd e (hold d h1 i1)
        · exact h.lock1 d h1 d' h2 i1 i2 e
      · rw [set_calls]
        intro d hd i1
        rw [topic_set]
        split
        · rfl
        · rename_i hne
          rcases hmem d hd with e1 | ⟨n1, h1⟩
          · subst e1; exact absurd rfl hne
          · exact h.lock2 d h1 i1
  · cases hs

/-- A call that holds the lock returns. -/
private theorem linv_leave {s : Listen.State} {c : Call} (h : LInv s) (hm : c ∈ s.calls) (hi : c.inside = true)
    (k : Nat) (p : List Nat) (t : Topic) (ht : t.busy = false) :
    LInv (({ s with calls := s.calls.erase c, returned := c.id :: s.returned, queue := k, published := p } : State).setTopic c.blocks t) := by
  refine ⟨?_, ?_, ?_, ?_, ?_, ?_, ?_, ?_⟩
  · intro b hb
    rw [topic_set] at hb
    rw [set_calls]
    split at hb
    · rw [ht] at hb; cases hb
    · rename_i hne
      obtain ⟨d, hd, h1, h2⟩ := h.busy b hb
      exact ⟨d, (mem_erase' h.nodup).2 ⟨fun e => hne (by rw [← h1, e]), hd⟩, h1, h2⟩
  · rw [set_loop, set_w]; exact h.loop
  · rw [set_calls]; exact fun d hd => h.kind d (List.mem_of_mem_erase hd)
  · rw [set_calls]; exact fun d hd d' hd' => h.one d (List.mem_of_mem_erase hd) d' (List.mem_of_mem_erase hd')
  · rw [set_calls]; exact h.nodup.erase _
  · rw [set_calls, set_next]; exact fun d hd => h.lt d (List.mem_of_mem_erase hd)
  · rw [set_calls]; exact fun d hd d' hd' => h.lock1 d (List.mem_of_mem_erase hd) d' (List.mem_of_mem_erase hd')
  · rw [set_calls]
    intro d hd i1
    have hd' := (mem_erase' h.nodup).1 hd
    rw [topic_set]
    split
    · rename_i e; exact absurd (h.lock1 d hd'.2 c hm i1 hi e) hd'.1
    · exact h.lock2 d hd'.2 i1

/-- Queries stay pending or answered (see C86). -/
private theorem kept {a b : Wiring.State} {l : Wiring.Label} (h : Wiring.step a l = some b) (q : Nat)
    (hq : q ∈ a.queries.map Prod.fst ∨ q ∈ a.answered) : q ∈ b.queries.map Prod.fst ∨ q ∈ b.answered :=
  wiring_kept h q hq

private theorem linv_step {room : Nat} {al : Bool} (s : Listen.State) (l : Listen.Label) (s' : Listen.State) (h : LInv s)
    (hs : Listen.step room al s l = some s') : LInv s' := by
  cases l
  case lock c => exact linv_lock h hs
  all_goals simp only [Listen.step] at hs
  case other wl =>
    split at hs
    · split at hs
      · rename_i hw; cases hs
        exact ⟨h.busy, fun q hq => kept hw q (h.loop q hq), h.kind, h.one, h.nodup, h.lt, h.lock1, h.lock2⟩
      · cases hs
    · cases hs
  case score q =>
    split at hs
    · rename_i hc
      split at hs
      · rename_i w hw; cases hs
        refine ⟨h.busy, ?_, h.kind, h.one, h.nodup, h.lt, h.lock1, h.lock2⟩
        intro q' hq'
        cases hq'
        unfold Wiring.step at hw
        split at hw
        · cases hw
        · simp only [hc.2.2, if_true] at hw
          cases hw
          exact Or.inl (by simp)
      · cases hs
    · cases hs
  case scored =>
    split at hs
    · split at hs
      · cases hs
        exact ⟨h.busy, fun q hq => (by cases hq), h.kind, h.one, h.nodup, h.lt, h.lock1, h.lock2⟩
      · cases hs
    · cases hs
  case pull =>
    split at hs
    · cases hs; exact ⟨h.busy, h.loop, h.kind, h.one, h.nodup, h.lt, h.lock1, h.lock2⟩
    · cases hs
  case call b k =>
    split at hs
    · cases hs
      have hmem : ∀ d, d ∈ s.calls ++ [(⟨s.next, b, k, false⟩ : Call)] → d ∈ s.calls ∨ d = ⟨s.next, b, k, false⟩ := by
        intro d hd; rcases List.mem_append.1 hd with hd | hd
        · exact Or.inl hd
        · exact Or.inr (List.mem_singleton.1 hd)
      refine ⟨?_, h.loop, ?_, ?_, ?_, ?_, ?_, ?_⟩
      · intro b' hb'
        obtain ⟨d, hd, h1⟩ := h.busy b' hb'
        exact ⟨d, List.mem_append_left _ hd, h1⟩
      · intro d hd i1
        rcases hmem d hd with hd | e
        · exact h.kind d hd i1
        · subst e; cases i1
      · intro d hd d' hd' e
        rcases hmem d hd with h1 | e1 <;> rcases hmem d' hd' with h2 | e2
        · exact h.one d h1 d' h2 e
        · subst e2; have := h.lt d h1; simp only at e; omega
        · subst e1; have := h.lt d' h2; simp only at e; omega
        · rw [e1, e2]
      · refine List.nodup_append.2 ⟨h.nodup, by simp, ?_⟩
        intro d hd d' hd' e
        rw [List.mem_singleton] at hd'
        subst hd'
        subst e
        have := h.lt _ hd
        simp only at this
        omega
      · intro d hd
        rcases hmem d hd with h1 | e1
        · have := h.lt d h1; simp only; omega
        · subst e1; simp only; omega
      · intro d hd d' hd' i1 i2 e
        rcases hmem d hd with h1 | e1 <;> rcases hmem d' hd' with h2 | e2
        · exact h.lock1 d h1 d' h2 i1 i2 e
        · subst e2; cases i2
        · subst e1; cases i1
        · rw [e1, e2]
      · intro d hd i1
        rcases hmem d hd with h1 | e1
        · exact h.lock2 d h1 i1
        · subst e1; cases i1
    · cases hs
  case push c =>
    split at hs
    · rename_i hc
      cases hs
      exact linv_leave h hc.1 hc.2.1 _ _ _ rfl
    · cases hs
  case serve c =>
    split at hs
    · rename_i hc
      cases hs
      exact linv_leave h hc.1 hc.2.1 s.queue s.published _ rfl
    · cases hs

private theorem linv_reach {room : Nat} {al : Bool} {s : Listen.State} (h : Listen.Reachable room al s) : LInv s := by
  obtain ⟨ls, hr⟩ := h
  refine l_ind linv_step ls _ s ⟨?_, ?_, ?_, ?_, ?_, ?_, ?_, ?_⟩ hr
  · intro b hb; cases b <;> cases hb
  · intro q hq; cases hq
  all_goals simp [Listen.init]

/-! ### While the manager serves -/

/-- Work left outside the error handler and the manager. -/
private def lwork (s : Listen.State) : Nat :=
  (s.calls.map fun c => if c.inside then 2 else 3).sum + s.queue + (if s.loop.isSome then 1 else 0)

private theorem sum_erase_call (l : List Call) (c : Call) (h : c ∈ l) :
    ((l.erase c).map fun c => if c.inside then 2 else 3).sum + (if c.inside then 2 else 3) =
      (l.map fun c : Call => if c.inside then 2 else 3).sum := by
  induction l with
  | nil => cases h
  | cons x l ih =>
    by_cases hx : x = c
    · subst hx; rw [List.erase_cons_head, List.map_cons, List.sum_cons]; omega
    · have hm : c ∈ l := by
        rcases List.mem_cons.1 h with h | h
        · exact absurd h.symm hx
        · exact h
      have := ih hm
      rw [List.erase_cons_tail (by simpa using hx)]
      simp only [List.map_cons, List.sum_cons]
      omega

private theorem lwork_step {room : Nat} {al : Bool} (s s' : Listen.State) (l : Listen.Label) (hi : Listen.Internal l = true)
    (hs : Listen.step room al s l = some s') :
    (∃ wl, l = .other wl ∧ Wiring.Internal wl = true ∧ Wiring.step s.w wl = some s'.w ∧ lwork s' = lwork s) ∨
    (s'.w = s.w ∧ lwork s' < lwork s) := by
  cases l <;> simp only [Listen.Internal] at hi <;> first | (exact absurd hi (by decide)) | skip
  all_goals simp only [Listen.step] at hs
  case other wl =>
    split at hs
    · split at hs
      · rename_i hw; cases hs; exact Or.inl ⟨wl, rfl, hi, hw, rfl⟩
      · cases hs
    · cases hs
  case scored =>
    split at hs
    · rename_i q hq
      split at hs
      · cases hs; refine Or.inr ⟨rfl, ?_⟩; simp [lwork, hq]
      · cases hs
    · cases hs
  case pull =>
    split at hs
    · rename_i hc; cases hs; refine Or.inr ⟨rfl, ?_⟩; simp only [lwork]; omega
    · cases hs
  case lock c =>
    split at hs
    · rename_i hc
      have hsum := sum_erase_call _ _ hc.1
      simp only [hc.2.1, Bool.false_eq_true, if_false] at hsum
      split at hs
      · cases hs; refine Or.inr ⟨rfl, ?_⟩; simp only [lwork]; omega
      · cases hs
        refine Or.inr ⟨set_w .., ?_⟩
        simp only [lwork, set_calls, set_queue, set_loop, List.map_cons, List.sum_cons, if_true]
        omega
    · cases hs
  case push c =>
    split at hs
    · rename_i hc
      have hsum := sum_erase_call _ _ hc.1
      simp only [hc.2.1, if_true] at hsum
      cases hs
      refine Or.inr ⟨set_w .., ?_⟩
      simp only [lwork, set_calls, set_queue, set_loop]
      omega
    · cases hs
  case serve c =>
    split at hs
    · rename_i hc
      have hsum := sum_erase_call _ _ hc.1
      simp only [hc.2.1, if_true] at hsum
      cases hs
      refine Or.inr ⟨set_w .., ?_⟩
      simp only [lwork, set_calls, set_queue, set_loop]
      omega
    · cases hs

/-- A call is pending or has returned. -/
private theorem call_kept {room : Nat} {al : Bool} (i : Nat) (s : Listen.State) (l : Listen.Label) (s' : Listen.State)
    (h : i ∈ s.calls.map Call.id ∨ i ∈ s.returned) (hs : Listen.step room al s l = some s') :
    i ∈ s'.calls.map Call.id ∨ i ∈ s'.returned := by
  have herase : ∀ c : Call, (i ∈ s.calls.map Call.id ∨ i ∈ s.returned) →
      i ∈ (s.calls.erase c).map Call.id ∨ i ∈ c.id :: s.returned := by
    intro c h
    rcases h with h | h
    · obtain ⟨d, hd, rfl⟩ := List.mem_map.1 h
      by_cases e : d = c
      · subst e; exact Or.inr (List.mem_cons_self ..)
      · exact Or.inl (List.mem_map.2 ⟨d, (List.mem_erase_of_ne e).2 hd, rfl⟩)
    · exact Or.inr (List.mem_cons_of_mem _ h)
  cases l <;> simp only [Listen.step] at hs <;> (repeat' split at hs) <;> first | cases hs | skip
  all_goals first
    | exact h
    | exact herase _ h
    | (rw [set_calls, set_returned]; exact herase _ h)
    | skip
  · rcases h with h | h
    · exact Or.inl (by rw [List.map_append]; exact List.mem_append_left _ h)
    · exact Or.inr h
  · rename_i c _ _
    rw [set_calls, set_returned]
    rcases herase c h with h | h
    · exact Or.inl (List.mem_cons_of_mem _ h)
    · rcases List.mem_cons.1 h with h | h
      · exact Or.inl (by rw [h]; exact List.mem_cons_self ..)
      · exact Or.inr h

/-- The steps of the error handler and the manager in an execution. -/
private def wlabels : List Listen.Label → List Wiring.Label
  | [] => []
  | .other l :: ls => l :: wlabels ls
  | _ :: ls => wlabels ls

private theorem run_internal {room : Nat} {al : Bool} (ls : List Listen.Label) (s s' : Listen.State)
    (hin : ∀ l ∈ ls, Listen.Internal l = true) (hr : Listen.run room al s ls = some s') :
    (∀ l ∈ wlabels ls, Wiring.Internal l = true) ∧ Wiring.run s.w (wlabels ls) = some s'.w ∧
      ls.length + lwork s' ≤ (wlabels ls).length + lwork s := by
  induction ls generalizing s with
  | nil => cases hr; exact ⟨fun l h => (by cases h), rfl, Nat.le_refl _⟩
  | cons l ls ih =>
    simp only [Listen.run] at hr
    split at hr
    · rename_i s1 h1
      obtain ⟨a, b, c⟩ := ih s1 (fun x hx => hin x (List.mem_cons_of_mem _ hx)) hr
      have hl := hin l (List.mem_cons_self ..)
      rcases lwork_step s s1 l hl h1 with ⟨wl, e, hw, hst, hk⟩ | ⟨hw, hk⟩
      · subst e
        refine ⟨?_, ?_, ?_⟩
        · intro x hx
          rcases List.mem_cons.1 hx with e | hx
          · rw [e]; exact hw
          · exact a x hx
        · simp only [wlabels, Wiring.run, hst]; exact b
        · simp only [wlabels, List.length_cons]; omega
      · have hnl : wlabels (l :: ls) = wlabels ls := by
          cases l <;> try rfl
          rename_i wl
          simp only [Listen.step] at h1
          split at h1
          · split at h1
            · cases h1
              simp only [lwork] at hk; omega
            · cases h1
          · cases h1
        rw [hnl]
        refine ⟨a, by rw [← hw]; exact b, ?_⟩
        simp only [List.length_cons]; omega
    · cases hr

/-- C131 while the connection manager serves: whatever state has been reached, the goroutines at work come to rest after a
bounded number of steps, in whatever order they take them, and then every call has returned: every announcement of the
node's services, every switch of gossip. What was handed to gossip has been sent. -/
theorem C131_returns_partial (room : Nat) (hroom : 0 < room) (always : Bool) (s : Listen.State)
    (h : Listen.Reachable room always s) (hu : Up s.w) :
    (∃ n, ∀ ls s', (∀ l ∈ ls, Listen.Internal l = true) → Listen.run room always s ls = some s' → ls.length ≤ n) ∧
    ∀ ls s', (∀ l ∈ ls, Listen.Internal l = true) → Listen.run room always s ls = some s' →
      (∀ l, Listen.Internal l = true → Listen.step room always s' l = none) →
      s'.calls = [] ∧ s'.queue = 0 ∧ s'.loop = none ∧ ∀ c ∈ s.calls, c.id ∈ s'.returned := by
  obtain ⟨⟨n, hn⟩, hrest⟩ := C86_gate_answers s.w (w_reach h) hu
  constructor
  · refine ⟨n + lwork s, ?_⟩
    intro ls s' hin hr
    obtain ⟨a, b, c⟩ := run_internal ls s s' hin hr
    have := hn _ _ a b
    omega
  · intro ls s' hin hr hq
    obtain ⟨a, b, _⟩ := run_internal ls s s' hin hr
    have hreach : Listen.Reachable room always s' := by
      obtain ⟨ls0, h0⟩ := h
      exact ⟨ls0 ++ ls, by rw [l_app, h0]; exact hr⟩
    have inv := linv_reach hreach
    have hwrest : ∀ l, Wiring.Internal l = true → Wiring.step s'.w l = none := by
      intro l hl
      have h1 := hq (.other l) hl
      simp only [Listen.step] at h1
      have hal : allowed s'.w l = true := by cases l <;> first | rfl | cases hl
      rw [if_pos hal] at h1
      split at h1
      · cases h1
      · assumption
    obtain ⟨_, _, hqs, _⟩ := hrest _ _ a b hwrest
    have hloop : s'.loop = none := by
      cases hl : s'.loop with
      | none => rfl
      | some q =>
        have h1 := hq .scored rfl
        rcases inv.loop q hl with hx | hx
        · rw [hqs] at hx; cases hx
        · simp [Listen.step, hl, hx] at h1
    have hqueue : s'.queue = 0 := by
      by_contra hne
      have h1 := hq .pull rfl
      simp only [Listen.step] at h1
      rw [if_pos ⟨hloop, by omega⟩] at h1
      cases h1
    have hins : ∀ c ∈ s'.calls, c.inside = false := by
      intro c hc
      cases hi : c.inside with
      | false => rfl
      | true =>
        exfalso
        rcases inv.kind c hc hi with hk | hk
        · have h1 := hq (.push c) rfl
          simp only [Listen.step] at h1
          rw [if_pos ⟨hc, hi, hk, by omega⟩] at h1
          cases h1
        · have h1 := hq (.serve c) rfl
          simp only [Listen.step] at h1
          rw [if_pos ⟨hc, hi, hk, hloop⟩] at h1
          cases h1
    have hcalls : s'.calls = [] := by
      by_contra hne
      obtain ⟨c, cs, hcs⟩ := List.exists_cons_of_ne_nil hne
      have hc : c ∈ s'.calls := by rw [hcs]; exact List.mem_cons_self ..
      have hb : (s'.topic c.blocks).busy = false := by
        cases hb : (s'.topic c.blocks).busy with
        | false => rfl
        | true =>
          obtain ⟨d, hd, _, h2⟩ := inv.busy _ hb
          rw [hins d hd] at h2; cases h2
      have h1 := hq (.lock c) rfl
      simp only [Listen.step] at h1
      rw [if_pos ⟨hc, hins c hc, hb⟩] at h1
      split at h1 <;> cases h1
    refine ⟨hcalls, hqueue, hloop, ?_⟩
    intro c hc
    have := l_ind (P := fun s => c.id ∈ s.calls.map Call.id ∨ c.id ∈ s.returned)
      (fun s l s' h hs => call_kept c.id s l s' h hs) ls s s' (Or.inl (List.mem_map.2 ⟨c, hc, rfl⟩)) hr
    rcases this with h | h
    · rw [hcalls] at h; cases h
    · exact h

/-- C131, what is sent: the messages put into the channel are those the loop has sent to the other nodes and those that are
still there. -/
theorem C131_sent (room : Nat) (always : Bool) (s : Listen.State) (h : Listen.Reachable room always s) :
    s.relayed + s.queue = s.published.length := by
  obtain ⟨ls, hr⟩ := h
  refine l_ind (P := fun s => s.relayed + s.queue = s.published.length) ?_ ls _ s rfl hr
  intro s l s' h hs
  have hset : ∀ (s : Listen.State) b t, (s.setTopic b t).published = s.published := by
    intro s b t; cases b <;> rfl
  cases l <;> simp only [Listen.step] at hs
  case pull =>
    split at hs
    · cases hs; simp only; omega
    · cases hs
  case push c =>
    split at hs
    · cases hs
      rw [set_relayed, set_queue, hset]
      simp only [List.length_cons]; omega
    · cases hs
  all_goals
    (repeat' split at hs) <;> first | cases hs | skip
  all_goals first
    | exact h
    | (rw [set_relayed, set_queue, hset]; exact h)

/-- C131, which messages are handed over: when the announcement of a message new to pubsub is finished, then the message has
been put into the channel, or gossip is off. -/
theorem C131_handed (room : Nat) (always : Bool) (s s' : Listen.State) (l : Listen.Label) (h : Listen.Reachable room always s)
    (hs : Listen.step room always s l = some s') (c : Call) (hc : c ∈ s.calls) (hk : c.kind = .publish true)
    (hnot : c.id ∉ s.returned) (hret : c.id ∈ s'.returned) :
    c.id ∈ s'.published ∨ ((s.topic c.blocks).on = false ∧ (s'.topic c.blocks).on = false) := by
  have inv := linv_reach h
  have hset : ∀ (s : Listen.State) b t, (s.setTopic b t).published = s.published := by
    intro s b t; cases b <;> rfl
  cases l <;> simp only [Listen.step] at hs
  case lock d =>
    split at hs
    · rename_i hd
      split at hs
      · rename_i hid
        cases hs
        rcases List.mem_cons.1 hret with e | e
        · have := inv.one c hc d hd.1 e
          subst this
          rw [hk] at hid
          simp only [idle, Bool.not_true, Bool.or_false, Bool.not_eq_true'] at hid
          exact Or.inr ⟨hid, hid⟩
        · exact absurd e hnot
      · cases hs
        rw [set_returned] at hret
        exact absurd hret hnot
    · cases hs
  case push d =>
    split at hs
    · cases hs
      rw [set_returned] at hret
      rw [hset]
      rcases List.mem_cons.1 hret with e | e
      · exact Or.inl (by rw [e]; exact List.mem_cons_self ..)
      · exact absurd e hnot
    · cases hs
  case serve d =>
    split at hs
    · rename_i hd
      cases hs
      rw [set_returned] at hret
      rcases List.mem_cons.1 hret with e | e
      · have := inv.one c hc d hd.1 e
        subst this
        rw [hk] at hd
        rcases hd.2.2.1 with h | h <;> cases h
      · exact absurd e hnot
    · cases hs
  all_goals
    (repeat' split at hs) <;> first | cases hs | skip
  all_goals exact absurd hret hnot

/- A running node: gossip is on, the loop is computing a score, and two blocks are announced. -/
private def onLabels : List Listen.Label :=
  [.other .setProvider, .other .startHandler, .other .startManager, .call true .start, .lock ⟨0, true, .start, false⟩,
    .serve ⟨0, true, .start, true⟩, .score 7, .call true (.publish true), .call true (.publish true),
    .lock ⟨1, true, .publish true, false⟩]
example : (Listen.run 32 false Listen.init onLabels).map (fun s => (s.calls, s.loop, s.block, s.returned)) =
    some ([⟨1, true, .publish true, true⟩, ⟨2, true, .publish true, false⟩], some 7, ⟨true, true⟩, [0]) := by
  decide +kernel
example : (Listen.run 32 false Listen.init onLabels).map (fun s => decide (s.w.handler ≠ .off ∧ s.w.manager ≠ .off ∧
    s.w.crashed = false)) = some true := by decide +kernel
example : (Listen.run 32 false Listen.init (onLabels ++ [.push ⟨1, true, .publish true, true⟩,
    .other (.managerTakes 7), .lock ⟨2, true, .publish true, false⟩, .other (.managerReplies true),
    .push ⟨2, true, .publish true, true⟩, .other (.handlerAnswers 7), .scored, .pull, .pull])).map
      (fun s => (s.calls, s.queue, s.loop, s.returned, s.relayed)) = some ([], 0, none, [2, 1, 0], 2) := by
  decide +kernel

/-! ### When the manager does not serve -/

/-- The loop waits for the manager. -/
private def Held (q : Nat) (s : Listen.State) : Prop :=
  s.w.manager = .off ∧ s.loop = some q ∧ q ∉ s.w.answered ∧ (q, Wiring.Stage.askAddr) ∈ s.w.queries ∧
    ∀ st, (q, st) ∈ s.w.queries → st = .askAddr

private theorem held_w {q : Nat} {w w' : Wiring.State} {l : Wiring.Label} (hm : w.manager = .off) (ha : q ∉ w.answered)
    (hq : (q, Wiring.Stage.askAddr) ∈ w.queries) (ho : ∀ st, (q, st) ∈ w.queries → st = .askAddr)
    (hno : l ≠ .startManager) (hal : allowed w l = true) (hs : Wiring.step w l = some w') :
    w'.manager = .off ∧ q ∉ w'.answered ∧ (q, Wiring.Stage.askAddr) ∈ w'.queries ∧
      ∀ st, (q, st) ∈ w'.queries → st = .askAddr := by
  have hnew : ∀ p, fresh w p = true → p ≠ q := by
    intro p hp e
    subst e
    simp only [fresh, Bool.and_eq_true, Bool.not_eq_true', List.contains_eq_mem, decide_eq_false_iff_not] at hp
    exact hp.1 (List.mem_map.2 ⟨_, hq, rfl⟩)
  unfold Wiring.step at hs
  split at hs
  · cases hs
  cases l <;> simp only [hm] at hs
  case startManager => exact absurd rfl hno
  case setProvider => cases hs; exact ⟨rfl, ha, hq, ho⟩
  case startHandler =>
    split at hs
    · split at hs
      · cases hs; exact ⟨rfl, ha, hq, ho⟩
      · cases hs; exact ⟨hm, ha, hq, ho⟩
    · cases hs
  case queryAddr p =>
    cases hs
    refine ⟨rfl, ha, List.mem_append_left _ hq, ?_⟩
    intro st hst
    rcases List.mem_append.1 hst with h | h
    · exact ho st h
    · have := List.mem_singleton.1 h
      exact absurd (congrArg Prod.fst this).symm (hnew p hal)
  case queryPeer p =>
    split at hs
    · cases hs
      refine ⟨rfl, ha, List.mem_append_left _ hq, ?_⟩
      intro st hst
      rcases List.mem_append.1 hst with h | h
      · exact ho st h
      · have := List.mem_singleton.1 h
        exact absurd (congrArg Prod.fst this).symm (hnew p hal)
    · cases hs; exact ⟨rfl, ha, hq, ho⟩
  case report => cases hs; exact ⟨rfl, ha, hq, ho⟩
  case managerTakes => simp at hs
  case managerTakesHandler => simp at hs
  case managerReplies => simp at hs
  case handlerTakes =>
    split at hs
    · cases hs; exact ⟨rfl, ha, hq, ho⟩
    · cases hs
  case handlerAnswers p =>
    split at hs
    · rename_i hc
      cases hs
      have hne : q ≠ p := by
        intro e
        subst e
        have := ho _ hc.2
        cases this
      refine ⟨rfl, ?_, ?_, ?_⟩
      · intro h
        rcases List.mem_cons.1 h with h | h
        · exact hne h
        · exact ha h
      · exact (List.mem_erase_of_ne (by intro e; exact hne (congrArg Prod.fst e))).2 hq
      · exact fun st h => ho st (List.mem_of_mem_erase h)
    · cases hs

/-- While the loop waits for the manager nothing is relayed, nothing leaves the channel, and what holds a lock keeps it
unless there is room in the channel. -/
private theorem held_step {room : Nat} {al : Bool} {q : Nat} {s s' : Listen.State} {l : Listen.Label} (h : Held q s)
    (hno : l ≠ .other .startManager) (hs : Listen.step room al s l = some s') :
    Held q s' ∧ s'.relayed = s.relayed ∧ s.queue ≤ s'.queue ∧
    (room ≤ s.queue → ∀ c ∈ s.calls, c.inside = true → c ∈ s'.calls) := by
  obtain ⟨hm, hl, ha, hq, ho⟩ := h
  cases l <;> simp only [Listen.step] at hs
  case other wl =>
    split at hs
    · rename_i hal
      split at hs
      · rename_i w hw
        cases hs
        obtain ⟨a, b, c, d⟩ := held_w hm ha hq ho (fun e => hno (by rw [e])) hal hw
        exact ⟨⟨a, hl, b, c, d⟩, rfl, Nat.le_refl _, fun _ _ h _ => h⟩
      · cases hs
    · cases hs
  case score p =>
    split at hs
    · rename_i hc; rw [hl] at hc; cases hc.1
    · cases hs
  case scored =>
    rw [hl] at hs
    simp only at hs
    split at hs
    · rename_i hc; exact absurd hc ha
    · cases hs
  case pull =>
    split at hs
    · rename_i hc; rw [hl] at hc; cases hc.1
    · cases hs
  case call b k =>
    split at hs
    · cases hs
      exact ⟨⟨hm, hl, ha, hq, ho⟩, rfl, Nat.le_refl _, fun _ _ h _ => List.mem_append_left _ h⟩
    · cases hs
  case lock c =>
    split at hs
    · rename_i hc
      have hkeep : ∀ d ∈ s.calls, d.inside = true → d ∈ s.calls.erase c := by
        intro d hd hi
        exact (List.mem_erase_of_ne (fun e => by rw [e, hc.2.1] at hi; cases hi)).2 hd
      split at hs
      · cases hs
        exact ⟨⟨hm, hl, ha, hq, ho⟩, rfl, Nat.le_refl _, fun _ => hkeep⟩
      · cases hs
        refine ⟨?_, set_relayed .., ?_, ?_⟩
        · unfold Held; rw [set_w, set_loop]; exact ⟨hm, hl, ha, hq, ho⟩
        · rw [set_queue]; exact Nat.le_refl _
        · rw [set_calls]; exact fun _ d hd hi => List.mem_cons_of_mem _ (hkeep d hd hi)
    · cases hs
  case push c =>
    split at hs
    · rename_i hc
      cases hs
      refine ⟨?_, set_relayed .., ?_, ?_⟩
      · unfold Held; rw [set_w, set_loop]; exact ⟨hm, hl, ha, hq, ho⟩
      · rw [set_queue]; exact Nat.le_succ _
      · intro hroom; have := hc.2.2.2; omega
    · cases hs
  case serve c =>
    split at hs
    · rename_i hc; rw [hl] at hc; cases hc.2.2.2
    · cases hs

private theorem held_run {room : Nat} {al : Bool} {q : Nat} (ls : List Listen.Label) (s s' : Listen.State) (h : Held q s)
    (hno : Listen.Label.other .startManager ∉ ls) (hr : Listen.run room al s ls = some s') :
    Held q s' ∧ s'.relayed = s.relayed ∧ s.queue ≤ s'.queue ∧
    (room ≤ s.queue → ∀ c ∈ s.calls, c.inside = true → c ∈ s'.calls) := by
  induction ls generalizing s with
  | nil => cases hr; exact ⟨h, rfl, Nat.le_refl _, fun _ _ h _ => h⟩
  | cons l ls ih =>
    simp only [Listen.run] at hr
    split at hr
    · rename_i s1 h1
      obtain ⟨a, b, c, d⟩ := held_step h (fun e => hno (by rw [e]; exact List.mem_cons_self ..)) h1
      obtain ⟨a', b', c', d'⟩ := ih s1 a (fun h => hno (List.mem_cons_of_mem _ h)) hr
      refine ⟨a', b'.trans b, Nat.le_trans c c', ?_⟩
      intro hroom x hx hi
      exact d' (Nat.le_trans hroom c) x (d hroom x hx hi) hi
    · cases hr

private theorem held_score {room : Nat} {al : Bool} {q : Nat} {s s' : Listen.State} (hm : s.w.manager = .off)
    (hs : Listen.step room al s (.score q) = some s') : Held q s' ∧ s'.relayed = s.relayed := by
  simp only [Listen.step] at hs
  split at hs
  · rename_i hc
    obtain ⟨_, hf, hp⟩ := hc
    simp only [fresh, Bool.and_eq_true, Bool.not_eq_true', List.contains_eq_mem, decide_eq_false_iff_not] at hf
    split at hs
    · rename_i w hw
      cases hs
      unfold Wiring.step at hw
      split at hw
      · cases hw
      · simp only [hp, if_true] at hw
        cases hw
        refine ⟨⟨hm, rfl, hf.2, List.mem_append_right _ (List.mem_singleton_self _), ?_⟩, rfl⟩
        intro st hst
        rcases List.mem_append.1 hst with h | h
        · exact absurd (List.mem_map.2 ⟨_, h, rfl⟩) hf.1
        · exact congrArg Prod.snd (List.mem_singleton.1 h)
    · cases hs
  · cases hs

/-- C131 where it fails, for all executions: if the connection manager does not serve (C36, C124) and gossip computes the
score of one peer, then nothing that the services announce reaches another node any more, whatever happens, and once the
channel is full no announcement and no switch of gossip that has begun is ever finished. -/
theorem C131_silent_partial (room : Nat) (always : Bool) (q : Nat) (s s1 s2 s3 : Listen.State) (hm : s.w.manager = .off)
    (hs : Listen.step room always s (.score q) = some s1) (ls ls' : List Listen.Label)
    (hno : Listen.Label.other .startManager ∉ ls) (hno' : Listen.Label.other .startManager ∉ ls')
    (hr : Listen.run room always s1 ls = some s2) (hr' : Listen.run room always s2 ls' = some s3) :
    s2.relayed = s.relayed ∧
    (room ≤ s2.queue → ∀ c ∈ s2.calls, c.inside = true → c ∈ s3.calls) := by
  obtain ⟨h1, e1⟩ := held_score hm hs
  obtain ⟨h2, e2, _, _⟩ := held_run ls s1 s2 h1 hno hr
  exact ⟨e2.trans e1, (held_run ls' s2 s3 h2 hno' hr').2.2.2⟩

/-- The claim: once the node has been started, every call is finished by the goroutines at work. -/
def TakesUp (room : Nat) (always : Bool) : Prop :=
  ∀ s, Listen.Reachable room always s → s.w.handler ≠ .off → s.w.crashed = false → ∀ c ∈ s.calls,
    ∃ ls s', (∀ l ∈ ls, Listen.Internal l = true) ∧ Listen.run room always s ls = some s' ∧ c.id ∈ s'.returned

private theorem fill (room : Nat) : ∀ k, k ≤ room → ∃ ls s, Listen.run room true Listen.init ls = some s ∧
    s.w = ⟨true, .idle, .off, [(0, .askAddr)], [], [], [], false⟩ ∧ s.loop = some 0 ∧ s.queue = k ∧
    s.block = ⟨true, false⟩ ∧ s.calls = [] ∧ (∀ i ∈ s.returned, i < s.next) := by
  intro k
  induction k with
  | zero =>
    intro _
    refine ⟨[.other .setProvider, .other .startHandler, .call true .start, .lock ⟨0, true, .start, false⟩,
      .serve ⟨0, true, .start, true⟩, .score 0],
      ⟨⟨true, .idle, .off, [(0, .askAddr)], [], [], [], false⟩, some 0, 0, 0, [], ⟨true, false⟩, ⟨false, false⟩, [], [0], 1⟩, ?_,
      rfl, rfl, rfl, rfl, rfl, by decide⟩
    simp [Listen.run, Listen.step, Listen.init, allowed, Wiring.step, Wiring.init, State.topic, State.setTopic, idle, fresh]
  | succ k ih =>
    intro hk
    obtain ⟨ls, s, hr, hw, hl, hq, hb, hc, hret⟩ := ih (by omega)
    refine ⟨ls ++ [.call true (.publish true), .lock ⟨s.next, true, .publish true, false⟩,
      .push ⟨s.next, true, .publish true, true⟩],
      { s with queue := k + 1, next := s.next + 1, returned := s.next :: s.returned, published := s.next :: s.published }, ?_, hw, hl, rfl, hb, hc, ?_⟩
    · rw [l_app, hr]
      have hlt : k < room := by omega
      simp only [Option.bind, Listen.run, Listen.step, State.topic, State.setTopic, hb, idle, hc, hq]
      simp [hlt, hb, hc]
    · intro i hi
      rcases List.mem_cons.1 hi with e | hi
      · subst e; simp
      · have := hret i hi; simp only; omega

/-- C131 refuted: if gossip is always on (`AlwaysEnable`) and the connection manager does not serve, then after one score
and as many blocks as pubsub has room for, the next announcement is never finished. -/
theorem C131_takes_up_refuted (room : Nat) : ¬ TakesUp room true := by
  intro h
  obtain ⟨ls, s, hr, hw, hl, hq, hb, hc, hret⟩ := fill room room (Nat.le_refl _)
  let c : Call := ⟨s.next, true, .publish true, true⟩
  let s1 : Listen.State := { s with calls := [c], next := s.next + 1, block := ⟨true, true⟩ }
  have hr1 : Listen.run room true Listen.init (ls ++ [.call true (.publish true), .lock ⟨s.next, true, .publish true, false⟩]) =
      some s1 := by
    rw [l_app, hr]
    simp only [Option.bind, Listen.run, Listen.step, State.topic, State.setTopic, hb, idle, hc]
    simp [s1, c]
  obtain ⟨ls', s', hin, hrun, hid⟩ := h s1 ⟨_, hr1⟩ (by simp [s1, hw]) (by simp [s1, hw]) c (List.mem_singleton_self _)
  have hheld : Held 0 s1 := by
    refine ⟨by simp [s1, hw], hl, by simp [s1, hw], by simp [s1, hw], ?_⟩
    intro st hst
    simpa [s1, hw] using hst
  have hno : Listen.Label.other .startManager ∉ ls' := fun hx => by have := hin _ hx; cases this
  have hstay := (held_run ls' s1 s' hheld hno hrun).2.2.2 (by simp [s1, hq]) c (List.mem_singleton_self _) rfl
  have hreach : Listen.Reachable room true s' := ⟨_ ++ ls', by rw [l_app, hr1]; exact hrun⟩
  -- a pending call has not returned
  have hfresh : ∀ (s : Listen.State), Listen.Reachable room true s → ∀ c ∈ s.calls, c.id ∉ s.returned := by
    intro s hs
    obtain ⟨ls, hr⟩ := hs
    refine (l_ind (P := fun s => LInv s ∧ (∀ c ∈ s.calls, c.id ∉ s.returned) ∧ ∀ i ∈ s.returned, i < s.next) ?_ ls _ s
      ⟨linv_reach (room := room) (al := true) ⟨[], rfl⟩, by simp [Listen.init], by simp [Listen.init]⟩ hr).2.1
    intro s l s' ⟨h1, h2, h3⟩ hs
    refine ⟨linv_step s l s' h1 hs, ?_⟩
    have hdone : ∀ c ∈ s.calls, (∀ d ∈ s.calls.erase c, d.id ∉ c.id :: s.returned) ∧ ∀ i ∈ c.id :: s.returned, i < s.next := by
      intro c hc
      refine ⟨?_, ?_⟩
      · intro d hd hx
        have hd' := (mem_erase' h1.nodup).1 hd
        rcases List.mem_cons.1 hx with e | hx
        · exact hd'.1 (h1.one d hd'.2 c hc e)
        · exact h2 d hd'.2 hx
      · intro i hi
        rcases List.mem_cons.1 hi with e | hi
        · rw [e]; exact h1.lt c hc
        · exact h3 i hi
    cases l <;> simp only [Listen.step] at hs
    case lock c =>
      split at hs
      · rename_i hc
        split at hs
        · cases hs; exact hdone c hc.1
        · cases hs
          rw [set_calls, set_returned, set_next]
          refine ⟨?_, h3⟩
          intro d hd
          rcases List.mem_cons.1 hd with e | hd
          · subst e; exact h2 c hc.1
          · exact h2 d (List.mem_of_mem_erase hd)
      · cases hs
    case push c =>
      split at hs
      · rename_i hc; cases hs; rw [set_calls, set_returned, set_next]; exact hdone c hc.1
      · cases hs
    case serve c =>
      split at hs
      · rename_i hc; cases hs; rw [set_calls, set_returned, set_next]; exact hdone c hc.1
      · cases hs
    case call b k =>
      split at hs
      · cases hs
        refine ⟨?_, fun i hi => Nat.lt_succ_of_lt (h3 i hi)⟩
        intro d hd hx
        rcases List.mem_append.1 hd with hd | hd
        · exact h2 d hd hx
        · have := List.mem_singleton.1 hd
          subst this
          exact Nat.lt_irrefl _ (h3 _ hx)
      · cases hs
    all_goals
      (repeat' split at hs) <;> first | cases hs | skip
    all_goals exact ⟨h2, h3⟩
  exact hfresh s' hreach c hstay hid

/-- C131 without the manager, if gossip is not always on: the toggle never switches it on, so that every announcement is
finished by its own next step, without waiting for anyone. -/
theorem C131_off_partial (room : Nat) (ls : List Listen.Label) (s : Listen.State)
    (hno : Listen.Label.other .startManager ∉ ls) (hr : Listen.run room false Listen.init ls = some s) :
    ∀ c ∈ s.calls, ∃ s', Listen.step room false s (.lock c) = some s' ∧ c.id ∈ s'.returned := by
  have key : ∀ (ls : List Listen.Label) (s s' : Listen.State), Listen.Label.other .startManager ∉ ls →
      (s.w.manager = .off ∧ s.block = ⟨false, false⟩ ∧ s.tx = ⟨false, false⟩ ∧
        ∀ c ∈ s.calls, c.inside = false ∧ c.kind ≠ .start) →
      Listen.run room false s ls = some s' →
      (s'.w.manager = .off ∧ s'.block = ⟨false, false⟩ ∧ s'.tx = ⟨false, false⟩ ∧
        ∀ c ∈ s'.calls, c.inside = false ∧ c.kind ≠ .start) := by
    intro ls
    induction ls with
    | nil => intro s s' _ h hr; cases hr; exact h
    | cons l ls ih =>
      intro s s' hno ⟨h1, h2, h3, h4⟩ hr
      simp only [Listen.run] at hr
      split at hr
      · rename_i s1 hs
        refine ih s1 s' (fun h => hno (List.mem_cons_of_mem _ h)) ?_ hr
        have hne : l ≠ .other .startManager := fun e => hno (by rw [e]; exact List.mem_cons_self ..)
        have hman : ∀ wl w, wl ≠ .startManager → Wiring.step s.w wl = some w → w.manager = .off := by
          intro wl w hwl hw
          unfold Wiring.step at hw
          split at hw
          · cases hw
          cases wl <;> simp only [h1] at hw
          case startManager => exact absurd rfl hwl
          all_goals
            (repeat' split at hw) <;> first | cases hw | skip
          all_goals first
            | exact h1
            | simp_all
        cases l <;> simp only [Listen.step] at hs
        case other wl =>
          split at hs
          · split at hs
            · rename_i w hw; cases hs; exact ⟨hman wl w (fun e => hne (by rw [e])) hw, h2, h3, h4⟩
            · cases hs
          · cases hs
        case score q =>
          split at hs
          · split at hs
            · rename_i w hw; cases hs; exact ⟨hman _ w (by simp) hw, h2, h3, h4⟩
            · cases hs
          · cases hs
        case call b k =>
          split at hs
          · rename_i hc
            cases hs
            refine ⟨h1, h2, h3, ?_⟩
            intro d hd
            rcases List.mem_append.1 hd with hd | hd
            · exact h4 d hd
            · have := List.mem_singleton.1 hd
              subst this
              refine ⟨rfl, ?_⟩
              rcases hc with hc | hc | hc
              · exact hc
              · cases hc
              · exact absurd h1 hc
          · cases hs
        case lock c =>
          split at hs
          · rename_i hc
            split at hs
            · cases hs; exact ⟨h1, h2, h3, fun d hd => h4 d (List.mem_of_mem_erase hd)⟩
            · rename_i hid
              exfalso
              have hk := (h4 c hc.1).2
              have ht : s.topic c.blocks = ⟨false, false⟩ := by
                unfold State.topic; split
                · exact h2
                · exact h3
              rw [ht] at hid
              rcases hkk : c.kind with f | _ | _
              · rw [hkk] at hid; simp [idle] at hid
              · exact hk hkk
              · rw [hkk] at hid; simp [idle] at hid
          · cases hs
        case push c =>
          split at hs
          · rename_i hc; have := (h4 c hc.1).1; rw [hc.2.1] at this; cases this
          · cases hs
        case serve c =>
          split at hs
          · rename_i hc; have := (h4 c hc.1).1; rw [hc.2.1] at this; cases this
          · cases hs
        all_goals
          (repeat' split at hs) <;> first | cases hs | skip
        all_goals exact ⟨h1, h2, h3, h4⟩
      · cases hr
  obtain ⟨_, h2, h3, h4⟩ := key ls _ s hno ⟨rfl, rfl, rfl, by simp [Listen.init]⟩ hr
  intro c hc
  have ht : s.topic c.blocks = ⟨false, false⟩ := by
    unfold State.topic; split
    · exact h2
    · exact h3
  have hid : idle (s.topic c.blocks) c.kind = true := by
    rw [ht]
    rcases hkk : c.kind with f | _ | _
    · simp [idle]
    · exact absurd hkk (h4 c hc).2
    · simp [idle]
  refine ⟨{ s with calls := s.calls.erase c, returned := c.id :: s.returned }, ?_, List.mem_cons_self ..⟩
  simp only [Listen.step]
  rw [if_pos ⟨hc, (h4 c hc).1, by rw [ht]⟩, if_pos hid]

/- Without the manager, two announcements. -/
example : (Listen.run 32 false Listen.init [.other .setProvider, .other .startHandler, .score 3, .call true (.publish true),
    .call false (.publish true)]).map (fun s => (s.calls.length, s.loop)) = some (2, some 3) := by decide +kernel
/- The same with `AlwaysEnable`, before the score: `C131_silent_partial` applies. -/
example : (Listen.run 2 true Listen.init [.other .setProvider, .other .startHandler, .call true .start,
    .lock ⟨0, true, .start, false⟩, .serve ⟨0, true, .start, true⟩, .call true (.publish true),
    .lock ⟨1, true, .publish true, false⟩, .push ⟨1, true, .publish true, true⟩, .pull, .score 5]).map
      (fun s => (s.relayed, s.loop, s.w.manager)) = some (1, some 5, .off) := by decide +kernel

end KP2P

import Verif.Proof.Fair
import Verif.Spec.Mailbox
import Mathlib.Data.List.Basic
/-!
# C106: calls end with their contexts
-/

namespace KP2P
open KP2P.Mail KP2P.Spec.Mail

private theorem mrun_ind {cap : Nat} {P : Mail.State → Prop} (h : ∀ s l s', P s → Mail.step cap s l = some s' → P s') :
    ∀ (ls : List Mail.Label) (s s' : Mail.State), P s → Mail.run cap s ls = some s' → P s' := by
  intro ls
  induction ls with
  | nil => intro s s' h0 hr; cases hr; exact h0
  | cons l ls ih =>
    intro s s' h0 hr
    simp only [Mail.run] at hr
    split at hr
    · rename_i s1 h1; exact ih s1 s' (h s l s1 h0 h1) hr
    · cases hr

private theorem mrun_append {cap : Nat} : ∀ (ls ks : List Mail.Label) (s s1 : Mail.State), Mail.run cap s ls = some s1 →
    Mail.run cap s (ls ++ ks) = Mail.run cap s1 ks := by
  intro ls ks
  induction ls with
  | nil => intro s s1 h; cases h; rfl
  | cons l ls ih =>
    intro s s1 h
    simp only [List.cons_append, Mail.run] at h ⊢
    split at h
    · rename_i s2 h2; exact ih s2 s1 h
    · cases h

private theorem mreach_step {cap : Nat} {s s' : Mail.State} {l : Mail.Label} (h : Mail.Reachable cap s)
    (hs : Mail.step cap s l = some s') : Mail.Reachable cap s' := by
  obtain ⟨ls, hr⟩ := h
  exact ⟨ls ++ [l], by rw [mrun_append _ _ _ _ hr]; simp [Mail.run, hs]⟩

private theorem mreach_run {cap : Nat} {s s' : Mail.State} {ls : List Mail.Label} (h : Mail.Reachable cap s)
    (hs : Mail.run cap s ls = some s') : Mail.Reachable cap s' := by
  obtain ⟨ks, hr⟩ := h
  exact ⟨ks ++ ls, by rw [mrun_append _ _ _ _ hr, hs]⟩

/-- The effect of a step. -/
private inductive MTr (cap : Nat) (s : Mail.State) : Mail.Label → Mail.State → Prop where
  | enter (h : s.buf.length < cap) : MTr cap s .call { s with buf := s.buf ++ [s.next], waiting := s.waiting ++ [s.next], next := s.next + 1, log := .called s.next :: s.log }
  | block (h : ¬ s.buf.length < cap) : MTr cap s .call { s with blocked := s.blocked ++ [s.next], next := s.next + 1, log := .called s.next :: s.log }
  | recv (b : Nat) (bs : List Nat) (hs : s.serving = true) (hb : s.buf = b :: bs) (hk : s.blocked = []) :
      MTr cap s .receive { s with buf := bs, held := b :: s.held, log := .received b :: s.log }
  | shift (b : Nat) (bs : List Nat) (c : Nat) (cs : List Nat) (hs : s.serving = true) (hb : s.buf = b :: bs) (hk : s.blocked = c :: cs) :
      MTr cap s .receive { s with buf := bs ++ [c], blocked := cs, waiting := s.waiting ++ [c], held := b :: s.held, log := .received b :: s.log }
  | direct (c : Nat) (cs : List Nat) (hs : s.serving = true) (hb : s.buf = []) (hk : s.blocked = c :: cs) :
      MTr cap s .receive { s with blocked := cs, waiting := s.waiting ++ [c], held := c :: s.held, log := .received c :: s.log }
  | answer (r : Nat) (h : r ∈ s.held) : MTr cap s (.answer r) { s with held := s.held.erase r, log := .answered r :: s.log }
  | expire (r : Nat) (h : r < s.next) (h' : Obs.expired r ∉ s.log) : MTr cap s (.expire r) { s with log := .expired r :: s.log }
  | takeReply (r : Nat) (h : r ∈ s.waiting) (h' : Obs.answered r ∈ s.log) :
      MTr cap s (.takeReply r) { s with waiting := s.waiting.erase r, log := .returned r true :: s.log }
  | giveUp (r : Nat) (h : r ∈ s.waiting) (h' : Obs.expired r ∈ s.log) :
      MTr cap s (.giveUp r) { s with waiting := s.waiting.erase r, log := .returned r false :: s.log }
  | stop (h : s.serving = true) : MTr cap s .stop { s with serving := false, log := .stopped :: s.log }

private theorem mtr_of_step {cap : Nat} {s s' : Mail.State} {l : Mail.Label} (hs : Mail.step cap s l = some s') : MTr cap s l s' := by
  cases l with
  | call =>
    simp only [Mail.step] at hs
    split at hs
    · rename_i h; cases hs; exact .enter h
    · rename_i h; cases hs; exact .block h
  | receive =>
    simp only [Mail.step] at hs
    split at hs
    · rename_i h
      split at hs
      · rename_i b bs hb hk; cases hs; exact .recv b bs h hb hk
      · rename_i b bs c cs hb hk; cases hs; exact .shift b bs c cs h hb hk
      · rename_i c cs hb hk; cases hs; exact .direct c cs h hb hk
      · cases hs
    · cases hs
  | answer r =>
    simp only [Mail.step] at hs
    split at hs
    · rename_i h; cases hs; exact .answer r h
    · cases hs
  | expire r =>
    simp only [Mail.step] at hs
    split at hs
    · rename_i h; cases hs; exact .expire r h.1 h.2
    · cases hs
  | takeReply r =>
    simp only [Mail.step] at hs
    split at hs
    · rename_i h; cases hs; exact .takeReply r h.1 h.2
    · cases hs
  | giveUp r =>
    simp only [Mail.step] at hs
    split at hs
    · rename_i h; cases hs; exact .giveUp r h.1 h.2
    · cases hs
  | stop =>
    simp only [Mail.step] at hs
    split at hs
    · rename_i h; cases hs; exact .stop h
    · cases hs

/-- What holds of every reachable state. -/
private structure MInv (cap : Nat) (s : Mail.State) : Prop where
  room : s.buf.length ≤ cap
  full : s.blocked ≠ [] → s.buf.length = cap
  called : ∀ r, Obs.called r ∈ s.log ↔ r < s.next
  opn : ∀ r, r < s.next → (∀ b, Obs.returned r b ∉ s.log) → r ∈ s.waiting ∨ r ∈ s.blocked
  nodup : (s.waiting ++ s.blocked).Nodup
  lt : ∀ r, r ∈ s.waiting ++ s.blocked → r < s.next
  fresh : ∀ r b, r ∈ s.waiting ++ s.blocked → Obs.returned r b ∉ s.log
  old : ∀ r b, Obs.returned r b ∈ s.log → r < s.next

private theorem minv_init (cap : Nat) : MInv cap Mail.init := by
  constructor <;> simp [Mail.init]

private theorem minv_step {cap : Nat} {s s' : Mail.State} {l : Mail.Label} (h : MInv cap s) (hs : Mail.step cap s l = some s') :
    MInv cap s' := by
  obtain ⟨room, full, called, opn, nodup, lt, fresh, old⟩ := h
  have hnew : s.next ∉ s.waiting ++ s.blocked := fun hx => Nat.lt_irrefl _ (lt _ hx)
  cases mtr_of_step hs with
  | enter h =>
    constructor
    · simp; omega
    · intro hb; have := full hb; omega
    · intro r; simp [called]; omega
    · intro r hr ho
      by_cases hrn : r = s.next
      · subst hrn; simp
      · rcases opn r (by dsimp only at hr; omega) (fun b hb => ho b (List.mem_cons_of_mem _ hb)) with h | h
        · exact Or.inl (List.mem_append_left _ h)
        · exact Or.inr h
    · have : List.Perm (s.waiting ++ [s.next] ++ s.blocked) (s.next :: (s.waiting ++ s.blocked)) := by
        simp [List.perm_middle]
      exact this.nodup_iff.2 (List.nodup_cons.2 ⟨hnew, nodup⟩)
    · intro r hr
      simp at hr
      rcases hr with hr | rfl | hr
      · have := lt r (by simp [hr]); dsimp only; omega
      · simp
      · have := lt r (by simp [hr]); dsimp only; omega
    · intro r b hr hb
      simp at hr hb
      have := old r b hb
      rcases hr with hr | rfl | hr
      · exact fresh r b (by simp [hr]) hb
      · omega
      · exact fresh r b (by simp [hr]) hb
    · intro r b hb; simp at hb; have := old r b hb; dsimp only; omega
  | block h =>
    constructor
    · exact room
    · intro _; dsimp only; omega
    · intro r; simp [called]; omega
    · intro r hr ho
      by_cases hrn : r = s.next
      · subst hrn; simp
      · rcases opn r (by dsimp only at hr; omega) (fun b hb => ho b (List.mem_cons_of_mem _ hb)) with h | h
        · exact Or.inl h
        · exact Or.inr (List.mem_append_left _ h)
    · have : List.Perm (s.waiting ++ (s.blocked ++ [s.next])) (s.next :: (s.waiting ++ s.blocked)) := by
        rw [← List.append_assoc]; exact List.perm_append_singleton _ _
      exact this.nodup_iff.2 (List.nodup_cons.2 ⟨hnew, nodup⟩)
    · intro r hr
      simp at hr
      rcases hr with hr | hr | rfl
      · have := lt r (by simp [hr]); dsimp only; omega
      · have := lt r (by simp [hr]); dsimp only; omega
      · simp
    · intro r b hr hb
      simp at hr hb
      have := old r b hb
      rcases hr with hr | hr | rfl
      · exact fresh r b (by simp [hr]) hb
      · exact fresh r b (by simp [hr]) hb
      · omega
    · intro r b hb; simp at hb; have := old r b hb; dsimp only; omega
  | recv b bs _ hb hk =>
    rw [hb] at room; simp at room
    constructor
    · dsimp only; omega
    · intro h; exact absurd hk h
    · intro r; simp [called]
    · intro r hr ho; exact opn r hr (fun b hb => ho b (List.mem_cons_of_mem _ hb))
    · exact nodup
    · exact lt
    · intro r b hr hb; simp at hb; exact fresh r b hr hb
    · intro r b hb; simp at hb; exact old r b hb
  | shift b bs c cs _ hb hk =>
    rw [hb] at room full; simp at room full
    have hf := full (by simp [hk])
    have hp : List.Perm (s.waiting ++ [c] ++ cs) (s.waiting ++ s.blocked) := by rw [hk]; simp
    constructor
    · simp; omega
    · intro _; simp; omega
    · intro r; simp [called]
    · intro r hr ho
      have := opn r hr (fun b hb => ho b (List.mem_cons_of_mem _ hb))
      rw [hk] at this; simp at this ⊢; tauto
    · exact hp.nodup_iff.2 nodup
    · intro r hr; exact lt r (hp.mem_iff.1 hr)
    · intro r b hr hb; simp at hb; exact fresh r b (hp.mem_iff.1 hr) hb
    · intro r b hb; simp at hb; exact old r b hb
  | direct c cs _ hb hk =>
    have hp : List.Perm (s.waiting ++ [c] ++ cs) (s.waiting ++ s.blocked) := by rw [hk]; simp
    constructor
    · exact room
    · intro _; exact full (by simp [hk])
    · intro r; simp [called]
    · intro r hr ho
      have := opn r hr (fun b hb => ho b (List.mem_cons_of_mem _ hb))
      rw [hk] at this; simp at this ⊢; tauto
    · exact hp.nodup_iff.2 nodup
    · intro r hr; exact lt r (hp.mem_iff.1 hr)
    · intro r b hr hb; simp at hb; exact fresh r b (hp.mem_iff.1 hr) hb
    · intro r b hb; simp at hb; exact old r b hb
  | answer r h =>
    refine ⟨room, full, ?_, ?_, nodup, lt, ?_, ?_⟩
    · intro r; simp [called]
    · intro r hr ho; exact opn r hr (fun b hb => ho b (List.mem_cons_of_mem _ hb))
    · intro r b hr hb; simp at hb; exact fresh r b hr hb
    · intro r b hb; simp at hb; exact old r b hb
  | expire r h _ =>
    refine ⟨room, full, ?_, ?_, nodup, lt, ?_, ?_⟩
    · intro r; simp [called]
    · intro r hr ho; exact opn r hr (fun b hb => ho b (List.mem_cons_of_mem _ hb))
    · intro r b hr hb; simp at hb; exact fresh r b hr hb
    · intro r b hb; simp at hb; exact old r b hb
  | stop h =>
    refine ⟨room, full, ?_, ?_, nodup, lt, ?_, ?_⟩
    · intro r; simp [called]
    · intro r hr ho; exact opn r hr (fun b hb => ho b (List.mem_cons_of_mem _ hb))
    · intro r b hr hb; simp at hb; exact fresh r b hr hb
    · intro r b hb; simp at hb; exact old r b hb
  | takeReply r0 h h' =>
    have hnd := List.nodup_append.1 nodup
    have hsub : ∀ r, r ∈ s.waiting.erase r0 ++ s.blocked → r ∈ s.waiting ++ s.blocked ∧ r ≠ r0 := by
      intro r hr
      rcases List.mem_append.1 hr with hr | hr
      · have := (hnd.1.mem_erase_iff).1 hr; exact ⟨List.mem_append_left _ this.2, this.1⟩
      · exact ⟨List.mem_append_right _ hr, fun e => hnd.2.2 r0 h r0 (e ▸ hr) rfl⟩
    refine ⟨room, full, ?_, ?_, ?_, ?_, ?_, ?_⟩
    · intro r; simp [called]
    · intro r hr ho
      have hne : r ≠ r0 := fun e => ho true (by simp [e])
      rcases opn r hr (fun b hb => ho b (List.mem_cons_of_mem _ hb)) with h | h
      · exact Or.inl ((List.mem_erase_of_ne hne).2 h)
      · exact Or.inr h
    · exact nodup.sublist (List.Sublist.append List.erase_sublist (List.Sublist.refl _))
    · intro r hr; exact lt r (hsub r hr).1
    · intro r b hr hb
      simp at hb
      rcases hb with ⟨rfl, _⟩ | hb
      · exact (hsub _ hr).2 rfl
      · exact fresh r b (hsub r hr).1 hb
    · intro r b hb
      simp at hb
      rcases hb with ⟨rfl, _⟩ | hb
      · exact lt _ (List.mem_append_left _ h)
      · exact old r b hb
  | giveUp r0 h h' =>
    have hnd := List.nodup_append.1 nodup
    have hsub : ∀ r, r ∈ s.waiting.erase r0 ++ s.blocked → r ∈ s.waiting ++ s.blocked ∧ r ≠ r0 := by
      intro r hr
      rcases List.mem_append.1 hr with hr | hr
      · have := (hnd.1.mem_erase_iff).1 hr; exact ⟨List.mem_append_left _ this.2, this.1⟩
      · exact ⟨List.mem_append_right _ hr, fun e => hnd.2.2 r0 h r0 (e ▸ hr) rfl⟩
    refine ⟨room, full, ?_, ?_, ?_, ?_, ?_, ?_⟩
    · intro r; simp [called]
    · intro r hr ho
      have hne : r ≠ r0 := fun e => ho false (by simp [e])
      rcases opn r hr (fun b hb => ho b (List.mem_cons_of_mem _ hb)) with h | h
      · exact Or.inl ((List.mem_erase_of_ne hne).2 h)
      · exact Or.inr h
    · exact nodup.sublist (List.Sublist.append List.erase_sublist (List.Sublist.refl _))
    · intro r hr; exact lt r (hsub r hr).1
    · intro r b hr hb
      simp at hb
      rcases hb with ⟨rfl, _⟩ | hb
      · exact (hsub _ hr).2 rfl
      · exact fresh r b (hsub r hr).1 hb
    · intro r b hb
      simp at hb
      rcases hb with ⟨rfl, _⟩ | hb
      · exact lt _ (List.mem_append_left _ h)
      · exact old r b hb

private theorem minv_reach {cap : Nat} {s : Mail.State} (h : Mail.Reachable cap s) : MInv cap s := by
  obtain ⟨ls, hr⟩ := h
  exact mrun_ind (P := MInv cap) (fun _ _ _ h hs => minv_step h hs) ls _ s (minv_init cap) hr

/-! ### The claim is false -/

private theorem fill (cap : Nat) : ∀ n, n ≤ cap → ∃ s, Mail.run cap Mail.init (List.replicate n .call) = some s ∧ s.buf.length = n ∧
    s.next = n ∧ s.blocked = [] ∧ s.serving = true ∧ ∀ o ∈ s.log, ∃ r, o = .called r := by
  intro n
  induction n with
  | zero => intro _; exact ⟨Mail.init, rfl, rfl, rfl, rfl, rfl, by simp [Mail.init]⟩
  | succ n ih =>
    intro hn
    obtain ⟨s, hr, hb, hx, hk, hse, hl⟩ := ih (by omega)
    rw [List.replicate_succ']
    refine ⟨{ s with buf := s.buf ++ [s.next], waiting := s.waiting ++ [s.next], next := s.next + 1, log := .called s.next :: s.log },
      by rw [mrun_append _ _ _ _ hr]; simp [Mail.run, Mail.step, show s.buf.length < cap by omega], by simp [hb], by simp [hx], hk, hse, ?_⟩
    intro o ho
    simp at ho
    rcases ho with rfl | ho
    · exact ⟨_, rfl⟩
    · exact hl o ho

/-- C106 refuted, whatever the room in the channel: with the channel full, one further call is not ended by its context. -/
theorem C106_ends_with_context_refuted (cap : Nat) : ¬ EndsWithContext cap := by
  intro h
  obtain ⟨s, hr, hb, hx, hk, hse, hl⟩ := fill cap cap (Nat.le_refl _)
  let s1 : Mail.State := { s with blocked := s.blocked ++ [s.next], next := s.next + 1, log := .called s.next :: s.log }
  let s2 : Mail.State := { s1 with log := .expired s.next :: s1.log }
  have hr2 : Mail.Reachable cap s2 := by
    refine ⟨List.replicate cap .call ++ [.call, .expire s.next], ?_⟩
    rw [mrun_append _ _ _ _ hr]
    have hne : Obs.expired s.next ∉ s.log := fun hx => by obtain ⟨r, hr⟩ := hl _ hx; cases hr
    simp [Mail.run, Mail.step, show ¬ s.buf.length < cap by omega, hne, s2, s1]
  have hc := h s2 s.next hr2 ⟨by simp [s2, s1], fun b hb => by
    simp [s2, s1] at hb; obtain ⟨r, hr⟩ := hl _ hb; cases hr⟩ (by simp [Over, s2])
  have hi := minv_reach hr2
  have hnd := List.nodup_append.1 hi.nodup
  have hnw : s.next ∉ s2.waiting := fun hw => hnd.2.2 s.next hw s.next (by simp [s2, s1]) rfl
  rcases hc with hc | hc <;> simp [Mail.step, hnw] at hc

/-! ### How far it holds -/

/-- C106 as far as it holds: while the channel has room, every call whose context has ended can return. -/
theorem C106_room_partial (cap : Nat) (s : Mail.State) (hs : Mail.Reachable cap s) (hb : s.buf.length < cap) (r : Nat)
    (ho : Open s r) (hx : Over s r) : CanReturn cap s r := by
  have hi := minv_reach hs
  have hk : s.blocked = [] := by
    by_contra hk
    have := hi.full hk; omega
  rcases hi.opn r ((hi.called r).1 ho.1) ho.2 with h | h
  · exact Or.inr (by simp [Mail.step, h, show Obs.expired r ∈ s.log from hx])
  · rw [hk] at h; cases h

/-- C106, the other half: a call that cannot return though its context has ended is still handing over its request, and the
channel is full. -/
theorem C106_only_sending_partial (cap : Nat) (s : Mail.State) (hs : Mail.Reachable cap s) (r : Nat)
    (ho : Open s r) (hx : Over s r) : CanReturn cap s r ∨ (r ∈ s.blocked ∧ s.buf.length = cap) := by
  have hi := minv_reach hs
  rcases hi.opn r ((hi.called r).1 ho.1) ho.2 with h | h
  · exact Or.inl (Or.inr (by simp [Mail.step, h, show Obs.expired r ∈ s.log from hx]))
  · exact Or.inr ⟨h, hi.full (by intro h0; rw [h0] at h; cases h)⟩

private theorem stopped_step {cap : Nat} {s s' : Mail.State} {l : Mail.Label} (hs : Mail.step cap s l = some s') (h : s.serving = false) :
    s'.serving = false ∧ s.blocked <+: s'.blocked ∧ s.buf <+: s'.buf := by
  cases mtr_of_step hs with
  | enter h' => exact ⟨h, List.prefix_refl _, by simp⟩
  | block h' => exact ⟨h, by simp, List.prefix_refl _⟩
  | recv b bs hse hb hk => rw [h] at hse; cases hse
  | shift b bs c cs hse hb hk => rw [h] at hse; cases hse
  | direct c cs hse hb hk => rw [h] at hse; cases hse
  | stop h' => rw [h] at h'; cases h'
  | answer r h' => exact ⟨h, List.prefix_refl _, List.prefix_refl _⟩
  | expire r h' _ => exact ⟨h, List.prefix_refl _, List.prefix_refl _⟩
  | takeReply r h' _ => exact ⟨h, List.prefix_refl _, List.prefix_refl _⟩
  | giveUp r h' _ => exact ⟨h, List.prefix_refl _, List.prefix_refl _⟩

private theorem stopped_run {cap : Nat} {s s' : Mail.State} {ls : List Mail.Label} (hs : Mail.run cap s ls = some s') (h : s.serving = false) :
    s'.serving = false ∧ s.blocked <+: s'.blocked ∧ s.buf <+: s'.buf :=
  mrun_ind (P := fun x => x.serving = false ∧ s.blocked <+: x.blocked ∧ s.buf <+: x.buf)
    (fun a l b ha hab => by
      obtain ⟨h1, h2, h3⟩ := stopped_step hab ha.1
      exact ⟨h1, ha.2.1.trans h2, ha.2.2.trans h3⟩) ls s s' ⟨h, List.prefix_refl _, List.prefix_refl _⟩ hs

/-- C106 where it fails, for every continuation: once the loop has ended, a call that is still handing over its request never
returns. -/
theorem C106_lost_partial (cap : Nat) (s s' : Mail.State) (hs : Mail.Reachable cap s) (hst : s.serving = false) (r : Nat)
    (hr : r ∈ s.blocked) (ls : List Mail.Label) (hrun : Mail.run cap s ls = some s') : Open s' r := by
  have hi := minv_reach (mreach_run hs hrun)
  have hb := (stopped_run hrun hst).2.1.subset hr
  have hlt := hi.lt r (List.mem_append_right _ hb)
  exact ⟨(hi.called r).2 hlt, fun b => hi.fresh r b (List.mem_append_right _ hb)⟩

/-! ### After the end of the loop -/

/-- The calls made from number `n` on that have returned. -/
def returnedSince (n : Nat) (s : Mail.State) : List Nat :=
  s.log.filterMap fun
    | .returned r _ => if n ≤ r then some r else none
    | _ => none

private theorem after_step {cap n k : Nat} {s s' : Mail.State} {l : Mail.Label} (hs : Mail.step cap s l = some s')
    (hst : s.serving = false) (hn : n ≤ s.next)
    (h : (returnedSince n s).length + (s.waiting.countP fun r => decide (n ≤ r)) + k = s.buf.length) :
    n ≤ s'.next ∧ (returnedSince n s').length + (s'.waiting.countP fun r => decide (n ≤ r)) + k = s'.buf.length := by
  cases mtr_of_step hs with
  | enter h' =>
    refine ⟨by dsimp only; omega, ?_⟩
    simp only [returnedSince, List.filterMap_cons, List.countP_append, List.length_append, List.countP_singleton, List.length_singleton] at h ⊢
    simp [hn] at h ⊢; omega
  | block h' => exact ⟨by dsimp only; omega, by simpa [returnedSince] using h⟩
  | recv b bs hse hb hk => rw [hst] at hse; cases hse
  | shift b bs c cs hse hb hk => rw [hst] at hse; cases hse
  | direct c cs hse hb hk => rw [hst] at hse; cases hse
  | stop h' => rw [hst] at h'; cases h'
  | answer r h' => exact ⟨hn, by simpa [returnedSince] using h⟩
  | expire r h' _ => exact ⟨hn, by simpa [returnedSince] using h⟩
  | takeReply r h' _ =>
    refine ⟨hn, ?_⟩
    have hp := (List.perm_cons_erase h').countP_eq (fun x => decide (n ≤ x))
    rw [List.countP_cons] at hp
    by_cases hr : n ≤ r
    · simp [returnedSince, hr] at h hp ⊢; omega
    · simp [returnedSince, hr] at h hp ⊢; omega
  | giveUp r h' _ =>
    refine ⟨hn, ?_⟩
    have hp := (List.perm_cons_erase h').countP_eq (fun x => decide (n ≤ x))
    rw [List.countP_cons] at hp
    by_cases hr : n ≤ r
    · simp [returnedSince, hr] at h hp ⊢; omega
    · simp [returnedSince, hr] at h hp ⊢; omega

/-- C106, how much is lost: after the end of the loop at most as many further calls return, however many are made, as the channel
had room left. -/
theorem C106_after_end_partial (cap : Nat) (s s' : Mail.State) (hs : Mail.Reachable cap s) (hst : s.serving = false)
    (ls : List Mail.Label) (hrun : Mail.run cap s ls = some s') :
    (returnedSince s.next s').length + s.buf.length ≤ cap := by
  have hi := minv_reach hs
  have h0 : (returnedSince s.next s).length = 0 := by
    rw [List.length_eq_zero_iff, returnedSince, List.filterMap_eq_nil_iff]
    intro o ho
    cases o with
    | returned r b => have := hi.old r b ho; simp; omega
    | _ => rfl
  have hw : (s.waiting.countP fun r => decide (s.next ≤ r)) = 0 := by
    rw [List.countP_eq_zero]
    intro r hr
    have := hi.lt r (List.mem_append_left _ hr)
    simp; omega
  have key := mrun_ind (cap := cap) (P := fun x => Mail.Reachable cap x ∧ x.serving = false ∧ s.next ≤ x.next ∧
      (returnedSince s.next x).length + (x.waiting.countP fun r => decide (s.next ≤ r)) + s.buf.length = x.buf.length)
    (fun a l b ha hab => by
      obtain ⟨h1, h2, h3, h4⟩ := ha
      have h5 := after_step hab h2 h3 h4
      exact ⟨mreach_step h1 hab, (stopped_step hab h2).1, h5.1, h5.2⟩)
    ls s s' ⟨hs, hst, Nat.le_refl _, by rw [h0, hw]; omega⟩ hrun
  have hroom := (minv_reach key.1).room
  omega

private theorem held_lt {cap : Nat} {s : Mail.State} (hs : Mail.Reachable cap s) :
    ∀ r, r ∈ s.held ∨ r ∈ s.buf ∨ Obs.answered r ∈ s.log → r < s.next := by
  have key : MInv cap s ∧ ∀ r, r ∈ s.held ∨ r ∈ s.buf ∨ Obs.answered r ∈ s.log → r < s.next := by
    obtain ⟨ls, hr⟩ := hs
    refine mrun_ind (cap := cap) (P := fun x => MInv cap x ∧ ∀ r, r ∈ x.held ∨ r ∈ x.buf ∨ Obs.answered r ∈ x.log → r < x.next)
      (fun a l b ha hab => ⟨minv_step ha.1 hab, ?_⟩) ls _ s ⟨minv_init cap, by simp [Mail.init]⟩ hr
    have h1 := ha.2
    have hlt := ha.1.lt
    clear hr ha
    intro r hx
    cases mtr_of_step hab with
    | enter h' =>
      simp at hx
      have := h1 r
      dsimp only
      rcases hx with h | (h | h) | h
      · have := h1 r (Or.inl h); omega
      · have := h1 r (Or.inr (Or.inl h)); omega
      · omega
      · have := h1 r (Or.inr (Or.inr h)); omega
    | block h' => simp at hx; have := h1 r hx; dsimp only; omega
    | recv b bs _ hb hk =>
      refine h1 r ?_
      rw [hb]; simp at hx ⊢; tauto
    | shift b bs c cs _ hb hk =>
      simp at hx
      have hc := hlt c (by simp [hk])
      dsimp only
      by_cases hrc : r = c
      · omega
      · refine h1 r ?_
        rw [hb]; simp; tauto
    | direct c cs _ hb hk =>
      simp at hx
      have hc := hlt c (by simp [hk])
      dsimp only
      by_cases hrc : r = c
      · omega
      · exact h1 r (by tauto)
    | answer r0 h' =>
      simp at hx
      rcases hx with h | h | rfl | h
      · exact h1 r (Or.inl (List.mem_of_mem_erase h))
      · exact h1 r (Or.inr (Or.inl h))
      · exact h1 _ (Or.inl h')
      · exact h1 r (Or.inr (Or.inr h))
    | expire r0 h' _ => simp at hx; exact h1 r hx
    | takeReply r0 h' _ => simp at hx; exact h1 r hx
    | giveUp r0 h' _ => simp at hx; exact h1 r hx
    | stop h' => simp at hx; exact h1 r hx
  exact key.2

private theorem none_step {cap n r : Nat} {s s' : Mail.State} {l : Mail.Label} (hs : Mail.step cap s l = some s') (hst : s.serving = false)
    (hne : l ≠ .expire r) (hn : n ≤ s.next) (h : r ∉ s.held ∧ Obs.answered r ∉ s.log ∧ Obs.expired r ∉ s.log ∧ ∀ b, Obs.returned r b ∉ s.log) :
    n ≤ s'.next ∧ r ∉ s'.held ∧ Obs.answered r ∉ s'.log ∧ Obs.expired r ∉ s'.log ∧ ∀ b, Obs.returned r b ∉ s'.log := by
  obtain ⟨h1, h2, h3, h4⟩ := h
  cases mtr_of_step hs with
  | enter h' => exact ⟨by dsimp only; omega, h1, by simpa using h2, by simpa using h3, by simpa using h4⟩
  | block h' => exact ⟨by dsimp only; omega, h1, by simpa using h2, by simpa using h3, by simpa using h4⟩
  | recv b bs hse hb hk => rw [hst] at hse; cases hse
  | shift b bs c cs hse hb hk => rw [hst] at hse; cases hse
  | direct c cs hse hb hk => rw [hst] at hse; cases hse
  | stop h' => rw [hst] at h'; cases h'
  | answer r0 h' =>
    have : r ≠ r0 := fun e => h1 (e ▸ h')
    exact ⟨hn, fun hx => h1 (List.mem_of_mem_erase hx), by simp [h2, this], by simpa using h3, by simpa using h4⟩
  | expire r0 h' _ =>
    have : r ≠ r0 := fun e => hne (by rw [e])
    exact ⟨hn, h1, by simpa using h2, by simp [h3, this], by simpa using h4⟩
  | takeReply r0 h' h'' =>
    have : r ≠ r0 := fun e => h2 (e ▸ h'')
    exact ⟨hn, h1, by simpa using h2, by simpa using h3, by simpa [this] using h4⟩
  | giveUp r0 h' h'' =>
    have : r ≠ r0 := fun e => h3 (e ▸ h'')
    exact ⟨hn, h1, by simpa using h2, by simpa using h3, by simpa [this] using h4⟩

/-- C106 for callers without a deadline, as libp2p's questions to the gate (error_handler.go:211-227 pass `context.Background()`):
made after the end of the loop they never return, not even the first. -/
theorem C106_no_deadline_partial (cap : Nat) (s s' : Mail.State) (hs : Mail.Reachable cap s) (hst : s.serving = false) (r : Nat)
    (hr : s.next ≤ r) (ls : List Mail.Label) (hne : .expire r ∉ ls) (hrun : Mail.run cap s ls = some s') :
    ∀ b, Obs.returned r b ∉ s'.log := by
  have hi := minv_reach hs
  have hl := held_lt hs
  have hexp : Obs.expired r ∉ s.log := by
    have key : ∀ x, Mail.Reachable cap x → ∀ q, Obs.expired q ∈ x.log → q < x.next := by
      intro x hx
      obtain ⟨ks, hk⟩ := hx
      refine mrun_ind (cap := cap) (P := fun x => ∀ q, Obs.expired q ∈ x.log → q < x.next) ?_ ks _ x (by simp [Mail.init]) hk
      intro a l b ha hab q hq
      have h1 := ha q
      cases mtr_of_step hab with
      | enter h' => simp at hq; have := h1 hq; dsimp only; omega
      | block h' => simp at hq; have := h1 hq; dsimp only; omega
      | expire r0 h' _ =>
        simp at hq
        rcases hq with rfl | hq
        · exact h'
        · exact h1 hq
      | _ => simp at hq; exact h1 hq
    intro hx; have := key s hs r hx; omega
  have h0 : r ∉ s.held ∧ Obs.answered r ∉ s.log ∧ Obs.expired r ∉ s.log ∧ ∀ b, Obs.returned r b ∉ s.log :=
    ⟨fun h => by have := hl r (Or.inl h); omega, fun h => by have := hl r (Or.inr (Or.inr h)); omega, hexp,
      fun b h => by have := hi.old r b h; omega⟩
  have key : ∀ (ls : List Mail.Label) (a : Mail.State), .expire r ∉ ls → a.serving = false →
      (r ∉ a.held ∧ Obs.answered r ∉ a.log ∧ Obs.expired r ∉ a.log ∧ ∀ b, Obs.returned r b ∉ a.log) →
      Mail.run cap a ls = some s' → ∀ b, Obs.returned r b ∉ s'.log := by
    intro ls
    induction ls with
    | nil => intro a _ _ ha hra; cases hra; exact ha.2.2.2
    | cons l ls ih =>
      intro a hn hse ha hra
      simp only [List.mem_cons, not_or] at hn
      simp only [Mail.run] at hra
      split at hra
      · rename_i b hab
        have := none_step (n := 0) hab hse (fun e => hn.1 e.symm) (Nat.zero_le _) ha
        exact ih b hn.2 (stopped_step hab hse).1 this.2 hra
      · cases hra
  exact key ls s hne hst h0 hrun

/-! ### While the loop runs -/

private theorem mexec_reach {cap : Nat} {σ : Nat → Mail.State} {ev : Nat → Mail.Label} (h : Mail.Exec cap σ ev)
    (h0 : Mail.Reachable cap (σ 0)) (n : Nat) : Mail.Reachable cap (σ n) := by
  induction n with
  | zero => exact h0
  | succ n ih => exact mreach_step ih (h n)

/-- A blocked call stays where it is or moves forward, and moves forward with every request received. -/
private theorem queue_step {cap r : Nat} {s s' : Mail.State} {l : Mail.Label} (hs : Mail.step cap s l = some s') (hi : MInv cap s)
    (hr : r ∈ s.blocked) :
    r ∈ s'.waiting ∨ (r ∈ s'.blocked ∧ s'.blocked.idxOf r ≤ s.blocked.idxOf r ∧
      (l = .receive → s'.blocked.idxOf r < s.blocked.idxOf r)) := by
  have nd := (List.nodup_append.1 hi.nodup)
  cases mtr_of_step hs with
  | enter h => exact Or.inr ⟨hr, Nat.le_refl _, nofun⟩
  | block h =>
    refine Or.inr ⟨List.mem_append_left _ hr, ?_, nofun⟩
    simp [List.idxOf_append, hr]
  | recv b bs _ hb hk => rw [hk] at hr; cases hr
  | shift b bs c cs _ hb hk =>
    rw [hk] at hr
    by_cases hrc : r = c
    · left; simp [hrc]
    · have hm : r ∈ cs := by simpa [hrc] using hr
      have : (c :: cs).idxOf r = cs.idxOf r + 1 := List.idxOf_cons_ne _ (Ne.symm hrc)
      right; rw [hk]; exact ⟨hm, by dsimp only; omega, fun _ => by dsimp only; omega⟩
  | direct c cs _ hb hk =>
    rw [hk] at hr
    by_cases hrc : r = c
    · left; simp [hrc]
    · have hm : r ∈ cs := by simpa [hrc] using hr
      have : (c :: cs).idxOf r = cs.idxOf r + 1 := List.idxOf_cons_ne _ (Ne.symm hrc)
      right; rw [hk]; exact ⟨hm, by dsimp only; omega, fun _ => by dsimp only; omega⟩
  | answer r0 h => exact Or.inr ⟨hr, Nat.le_refl _, nofun⟩
  | expire r0 h _ => exact Or.inr ⟨hr, Nat.le_refl _, nofun⟩
  | takeReply r0 h _ => exact Or.inr ⟨hr, Nat.le_refl _, nofun⟩
  | giveUp r0 h _ => exact Or.inr ⟨hr, Nat.le_refl _, nofun⟩
  | stop h => exact Or.inr ⟨hr, Nat.le_refl _, nofun⟩

private theorem over_step {cap r : Nat} {s s' : Mail.State} {l : Mail.Label} (hs : Mail.step cap s l = some s') (hx : Over s r) :
    Over s' r := by
  unfold Over at hx ⊢
  cases mtr_of_step hs <;> exact List.mem_cons_of_mem _ hx

private theorem wait_step {cap r : Nat} {s s' : Mail.State} {l : Mail.Label} (hs : Mail.step cap s l = some s') (hw : r ∈ s.waiting)
    (hno : ∀ b, Obs.returned r b ∉ s'.log) : r ∈ s'.waiting ∧ l ≠ .takeReply r ∧ l ≠ .giveUp r := by
  cases mtr_of_step hs with
  | enter h => exact ⟨List.mem_append_left _ hw, nofun, nofun⟩
  | block h => exact ⟨hw, nofun, nofun⟩
  | recv b bs _ hb hk => exact ⟨hw, nofun, nofun⟩
  | shift b bs c cs _ hb hk => exact ⟨List.mem_append_left _ hw, nofun, nofun⟩
  | direct c cs _ hb hk => exact ⟨List.mem_append_left _ hw, nofun, nofun⟩
  | answer r0 h => exact ⟨hw, nofun, nofun⟩
  | expire r0 h _ => exact ⟨hw, nofun, nofun⟩
  | stop h => exact ⟨hw, nofun, nofun⟩
  | takeReply r0 h _ =>
    have hne : r ≠ r0 := fun e => hno true (by simp [e])
    exact ⟨(List.mem_erase_of_ne hne).2 hw, fun e => hne (by cases e; rfl), nofun⟩
  | giveUp r0 h _ =>
    have hne : r ≠ r0 := fun e => hno false (by simp [e])
    exact ⟨(List.mem_erase_of_ne hne).2 hw, nofun, fun e => hne (by cases e; rfl)⟩

/-- C106 while the loop runs: if it goes on receiving, every call whose context has ended returns, however many calls are made
before and after it, and though none of them is ever answered. -/
theorem C106_served_partial (cap : Nat) (σ : Nat → Mail.State) (ev : Nat → Mail.Label) (he : Mail.Exec cap σ ev)
    (h0 : Mail.Reachable cap (σ 0)) (hup : ∀ n, (σ n).serving = true) (hf : FairReceive cap σ ev) (r : Nat)
    (hfr : FairReturn cap σ ev r) (n : Nat) (ho : Open (σ n) r) (hx : Over (σ n) r) :
    ∃ m b, n ≤ m ∧ Obs.returned r b ∈ (σ m).log := by
  by_contra hno
  have hnot : ∀ m, n ≤ m → ∀ b, Obs.returned r b ∉ (σ m).log := fun m hm b h => hno ⟨m, b, hm, h⟩
  have hinv := fun m => minv_reach (mexec_reach he h0 m)
  have hover : ∀ d, Over (σ (n + d)) r := by
    intro d
    induction d with
    | zero => exact hx
    | succ d ih => exact over_step (he (n + d)) ih
  -- the request gets into the channel
  have hent : ∃ m, n ≤ m ∧ r ∈ (σ m).waiting := by
    rcases (hinv n).opn r (((hinv n).called r).1 ho.1) ho.2 with h | h
    · exact ⟨n, Nat.le_refl _, h⟩
    · refine leads_to (ev := ev) (fun s : Mail.State => s.blocked.idxOf r) (fun s => r ∈ s.blocked) (fun s => r ∈ s.waiting)
        (fun _ (l : Mail.Label) => l = .receive)
        (fun m hp _ => queue_step (he m) (hinv m) hp) ?_ n h
      intro k hk
      refine hf k fun m hm => ?_
      have hb := (hk m hm).1
      have hse := hup m
      cases hbuf : (σ m).buf <;> cases hblk : (σ m).blocked
      · rw [hblk] at hb; cases hb
      · simp [Mail.step, hse, hbuf, hblk]
      · rw [hblk] at hb; cases hb
      · simp [Mail.step, hse, hbuf, hblk]
  obtain ⟨m, hm, hw⟩ := hent
  have hstay : ∀ d, r ∈ (σ (m + d)).waiting := by
    intro d
    induction d with
    | zero => exact hw
    | succ d ih => exact (wait_step (he (m + d)) ih (hnot (m + d + 1) (by omega))).1
  obtain ⟨k, hk, hev⟩ := hfr m fun j hj => by
    obtain ⟨d, rfl⟩ := Nat.exists_eq_add_of_le hj
    obtain ⟨d', hd'⟩ := Nat.exists_eq_add_of_le (Nat.le_trans hm hj)
    have := hover d'
    rw [← hd'] at this
    exact Or.inr (by simp [Mail.step, hstay d, show Obs.expired r ∈ (σ (m + d)).log from this])
  obtain ⟨d, rfl⟩ := Nat.exists_eq_add_of_le hk
  have := (wait_step (he (m + d)) (hstay d) (hnot (m + d + 1) (by omega))).2
  rcases hev with h | h
  · exact this.1 h
  · exact this.2 h

/-- What a call returns is what it says: a reply only if the loop has replied to it, a time-out only if its context has ended. -/
theorem C106_reason_partial (cap : Nat) (s : Mail.State) (hs : Mail.Reachable cap s) (r : Nat) :
    (Obs.returned r true ∈ s.log → Obs.answered r ∈ s.log) ∧ (Obs.returned r false ∈ s.log → Obs.expired r ∈ s.log) := by
  obtain ⟨ls, hr⟩ := hs
  refine mrun_ind (cap := cap) (P := fun x => (Obs.returned r true ∈ x.log → Obs.answered r ∈ x.log) ∧
    (Obs.returned r false ∈ x.log → Obs.expired r ∈ x.log)) ?_ ls _ s (by simp [Mail.init]) hr
  intro a l b ⟨h1, h2⟩ hab
  cases mtr_of_step hab with
  | takeReply r0 _ h' =>
    refine ⟨fun h => ?_, fun h => ?_⟩
    · simp at h ⊢
      rcases h with rfl | h
      · exact h'
      · exact h1 h
    · simp at h ⊢; exact h2 h
  | giveUp r0 _ h' =>
    refine ⟨fun h => ?_, fun h => ?_⟩
    · simp at h ⊢; exact h1 h
    · simp at h ⊢
      rcases h with rfl | h
      · exact h'
      · exact h2 h
  | _ => exact ⟨fun h => List.mem_cons_of_mem _ (h1 (by simpa using h)), fun h => List.mem_cons_of_mem _ (h2 (by simpa using h))⟩

/-- The calls that have returned, newest first. -/
def returnedCalls (s : Mail.State) : List Nat := s.log.filterMap fun | .returned r _ => some r | _ => none

private theorem mem_returnedCalls {s : Mail.State} {r : Nat} : r ∈ returnedCalls s ↔ ∃ b, Obs.returned r b ∈ s.log := by
  simp only [returnedCalls, List.mem_filterMap]
  constructor
  · rintro ⟨o, ho, h⟩
    cases o with
    | returned r' b => cases h; exact ⟨b, ho⟩
    | _ => cases h
  · rintro ⟨b, h⟩
    exact ⟨_, h, rfl⟩

/-- No call returns twice, and only calls that were made return. -/
theorem C106_once_partial (cap : Nat) (s : Mail.State) (hs : Mail.Reachable cap s) :
    (returnedCalls s).Nodup ∧ ∀ r ∈ returnedCalls s, Obs.called r ∈ s.log := by
  have hi := minv_reach hs
  refine ⟨?_, fun r hr => ?_⟩
  · obtain ⟨ls, hr⟩ := hs
    refine (mrun_ind (cap := cap) (P := fun x => MInv cap x ∧ (returnedCalls x).Nodup) ?_ ls _ s ⟨minv_init cap, by simp [returnedCalls, Mail.init]⟩ hr).2
    intro a l b ⟨h1, h2⟩ hab
    refine ⟨minv_step h1 hab, ?_⟩
    cases mtr_of_step hab with
    | takeReply r0 h _ =>
      refine List.nodup_cons.2 ⟨fun hm => ?_, h2⟩
      obtain ⟨b, hb⟩ := mem_returnedCalls.1 hm
      exact h1.fresh r0 b (List.mem_append_left _ h) hb
    | giveUp r0 h _ =>
      refine List.nodup_cons.2 ⟨fun hm => ?_, h2⟩
      obtain ⟨b, hb⟩ := mem_returnedCalls.1 hm
      exact h1.fresh r0 b (List.mem_append_left _ h) hb
    | _ => exact h2
  · obtain ⟨b, hb⟩ := mem_returnedCalls.1 hr
    exact (hi.called r).2 (hi.old r b hb)

/-! ### Examples -/

/-- A channel with room for one: the second call is stuck, the first one gives up (hypotheses of `C106_room_partial` after the first
call, of `C106_only_sending_partial`, `C106_lost_partial` and `C106_after_end_partial` at the end). -/
example : ∃ s s', Mail.Reachable 1 s ∧ Open s 0 ∧ Over s 0 ∧ CanReturn 1 s 0 ∧ Open s 1 ∧ Over s 1 ∧ ¬ CanReturn 1 s 1 ∧
    s.serving = false ∧ 1 ∈ s.blocked ∧ s.buf.length = 1 ∧ Mail.run 1 s [.giveUp 0, .call] = some s' ∧ Obs.returned 0 false ∈ s'.log := by
  refine ⟨_, _, ⟨[.call, .call, .stop, .expire 0, .expire 1], rfl⟩, ?_, ?_, ?_, ?_, ?_, ?_, rfl, ?_, rfl, rfl, ?_⟩ <;>
    simp [Open, Over, CanReturn, Mail.step, Mail.init]

/-- Two calls that have returned, one with a reply and one without. -/
example : ∃ s, Mail.Reachable 1 s ∧ returnedCalls s = [1, 0] := by
  refine ⟨_, ⟨[.call, .receive, .call, .expire 1, .answer 0, .takeReply 0, .giveUp 1], rfl⟩, ?_⟩
  simp [returnedCalls, Mail.init]

/-- With room in the channel (hypotheses of `C106_room_partial`). -/
example : ∃ s, Mail.Reachable 10 s ∧ s.buf.length < 10 ∧ Open s 0 ∧ Over s 0 := by
  refine ⟨_, ⟨[.call, .call, .expire 0], rfl⟩, ?_, ?_, ?_⟩ <;> simp [Open, Over, Mail.init]

/-- A question asked after the end, without a deadline (hypotheses of `C106_no_deadline_partial`). -/
example : ∃ s s', Mail.Reachable 10 s ∧ s.serving = false ∧ s.next ≤ 0 ∧ Mail.run 10 s [.call, .call, .expire 1, .giveUp 1] = some s' := by
  exact ⟨_, _, ⟨[.stop], rfl⟩, rfl, Nat.le_refl _, rfl⟩

/-- Two calls, the second of which gives up; then calls and receptions in turn. -/
private def mev : Nat → Mail.Label
  | 0 => .call
  | 1 => .call
  | 2 => .expire 1
  | 3 => .receive
  | 4 => .giveUp 1
  | n + 5 => if n % 2 = 0 then .call else .receive

private def mst : Nat → Mail.State
  | 0 => Mail.init
  | n + 1 => (Mail.step 1 (mst n) (mev n)).getD Mail.init

private theorem mst_even : ∀ k, ((mst (2 * k + 5)).serving = true ∧ (mst (2 * k + 5)).buf.length = 1 ∧ (mst (2 * k + 5)).blocked = []) ∧
    ((mst (2 * k + 6)).serving = true ∧ (mst (2 * k + 6)).buf.length = 1 ∧ (mst (2 * k + 6)).blocked.length = 1) := by
  have hcall : ∀ k, (mst (2 * k + 5)).serving = true ∧ (mst (2 * k + 5)).buf.length = 1 ∧ (mst (2 * k + 5)).blocked = [] →
      (mst (2 * k + 6)).serving = true ∧ (mst (2 * k + 6)).buf.length = 1 ∧ (mst (2 * k + 6)).blocked.length = 1 := by
    intro k ⟨h1, h2, h3⟩
    have : mst (2 * k + 6) = (Mail.step 1 (mst (2 * k + 5)) .call).getD Mail.init := by
      show (Mail.step 1 (mst (2 * k + 5)) (mev (2 * k + 5))).getD Mail.init = _
      simp [mev]
    rw [this]
    simp [Mail.step, h1, h2, h3]
  intro k
  induction k with
  | zero =>
    have h : (mst 5).serving = true ∧ (mst 5).buf.length = 1 ∧ (mst 5).blocked = [] := by decide
    exact ⟨h, hcall 0 h⟩
  | succ k ih =>
    obtain ⟨h1, h2, h3⟩ := ih.2
    have h : (mst (2 * (k + 1) + 5)).serving = true ∧ (mst (2 * (k + 1) + 5)).buf.length = 1 ∧ (mst (2 * (k + 1) + 5)).blocked = [] := by
      have : mst (2 * (k + 1) + 5) = (Mail.step 1 (mst (2 * k + 6)) .receive).getD Mail.init := by
        show (Mail.step 1 (mst (2 * k + 6)) (mev (2 * k + 6))).getD Mail.init = _
        simp [mev, show (2 * k + 1) % 2 = 1 by omega]
      rw [this]
      obtain ⟨b, hb⟩ := List.length_eq_one_iff.1 h2
      obtain ⟨c, hc⟩ := List.length_eq_one_iff.1 h3
      simp [Mail.step, h1, hb, hc]
    exact ⟨h, hcall (k + 1) h⟩

private theorem mst_exec : Mail.Exec 1 mst mev := by
  have key : ∀ n, (Mail.step 1 (mst n) (mev n)).isSome = true := by
    intro n
    by_cases hn : n < 5
    · have : n = 0 ∨ n = 1 ∨ n = 2 ∨ n = 3 ∨ n = 4 := by omega
      rcases this with rfl | rfl | rfl | rfl | rfl <;> decide
    · obtain ⟨d, rfl⟩ := Nat.exists_eq_add_of_le (Nat.le_of_not_lt hn)
      by_cases hd : d % 2 = 0
      · rw [show 5 + d = d + 5 by omega]
        simp only [mev, hd, if_true, Mail.step]
        split <;> rfl
      · obtain ⟨k, rfl⟩ : ∃ k, d = 2 * k + 1 := ⟨d / 2, by omega⟩
        obtain ⟨h1, h2, h3⟩ := (mst_even k).2
        rw [show 5 + (2 * k + 1) = 2 * k + 6 by omega]
        obtain ⟨b, hb⟩ := List.length_eq_one_iff.1 h2
        obtain ⟨c, hc⟩ := List.length_eq_one_iff.1 h3
        simp [mev, show (2 * k + 1) % 2 = 1 by omega, Mail.step, h1, hb, hc]
  intro n
  show _ = some ((Mail.step 1 (mst n) (mev n)).getD Mail.init)
  have := key n
  cases h : Mail.step 1 (mst n) (mev n) with
  | none => rw [h] at this; cases this
  | some s => rfl

/-- Such an execution (hypotheses of `C106_served_partial`): call 1 is blocked when its context ends. -/
example : Mail.Exec 1 mst mev ∧ Mail.Reachable 1 (mst 0) ∧ (∀ n, (mst n).serving = true) ∧ FairReceive 1 mst mev ∧ FairReturn 1 mst mev 1 ∧
    Open (mst 3) 1 ∧ Over (mst 3) 1 ∧ 1 ∈ (mst 3).blocked := by
  refine ⟨mst_exec, ⟨[], rfl⟩, ?_, ?_, ?_, ?_, ?_, by decide⟩
  · intro n
    by_cases hn : n < 5
    · have : n = 0 ∨ n = 1 ∨ n = 2 ∨ n = 3 ∨ n = 4 := by omega
      rcases this with rfl | rfl | rfl | rfl | rfl <;> decide
    · rcases Nat.mod_two_eq_zero_or_one n with h | h
      · have := (mst_even ((n - 6) / 2)).2.1
        rwa [show 2 * ((n - 6) / 2) + 6 = n by omega] at this
      · have := (mst_even ((n - 5) / 2)).1.1
        rwa [show 2 * ((n - 5) / 2) + 5 = n by omega] at this
  · intro n _
    exact ⟨2 * n + 1 + 5, by omega, by simp [mev, show (2 * n + 1) % 2 = 1 by omega]⟩
  · intro n hn
    by_cases h4 : n ≤ 4
    · exact ⟨4, h4, Or.inr rfl⟩
    · exfalso
      have hlog : ∀ d, Obs.returned 1 false ∈ (mst (5 + d)).log := by
        intro d
        induction d with
        | zero => decide
        | succ d ih =>
          have hst := mst_exec (5 + d)
          show _ ∈ (mst (5 + d + 1)).log
          generalize mst (5 + d + 1) = s' at hst ⊢
          generalize mev (5 + d) = l at hst
          cases mtr_of_step hst <;> exact List.mem_cons_of_mem _ ih
      obtain ⟨d, rfl⟩ := Nat.exists_eq_add_of_le (show 5 ≤ n by omega)
      have hw : 1 ∉ (mst (5 + d)).waiting := fun hw =>
        (minv_reach (mexec_reach mst_exec ⟨[], rfl⟩ (5 + d))).fresh 1 false (List.mem_append_left _ hw) (hlog d)
      rcases hn (5 + d) (Nat.le_refl _) with h | h <;> simp [Mail.step, hw] at h
  · exact ⟨by decide, fun b => by cases b <;> decide⟩
  · show Obs.expired 1 ∈ (mst 3).log
    decide

end KP2P

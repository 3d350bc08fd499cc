import Verif.Spec.ConnManager
import Verif.Proof.ForkWatchdog
import Mathlib.Data.List.Perm.Basic

namespace KP2P
open Spec

namespace CM

theorem run_snoc (evs : List Event) (e : Event) : run (evs ++ [e]) = step (run evs) e := by
  unfold run; rw [List.foldl_append]; rfl

theorem openConns_snoc (evs : List Event) (e : Event) : openConns (evs ++ [e]) = match e with
    | .connected c => c :: openConns evs
    | .disconnected c => (openConns evs).erase c
    | .shutdown => openConns evs := by
  unfold openConns; rw [List.foldl_append]; rfl

theorem stopped_iff (evs : List Event) : (run evs).stopped = true ↔ Event.shutdown ∈ evs := by
  induction evs using List.reverseRecOn with
  | nil => simp [run, init]
  | append_singleton evs e ih =>
    rw [run_snoc, List.mem_append]
    unfold step
    cases hs : (run evs).stopped with
    | true =>
      have := ih.1 hs
      simp [this, hs]
    | false =>
      have : Event.shutdown ∉ evs := fun h => by rw [ih.2 h] at hs; cases hs
      cases e with
      | connected c =>
        simp only [Bool.false_eq_true, if_false, handleConnected]
        split <;> simp [hs, this]
      | disconnected c =>
        simp only [Bool.false_eq_true, if_false, handleDisconnected]
        split <;> simp [hs, this]
      | shutdown => simp [shutdown]

theorem single_prefix {evs : List Event} {e : Event} (h : SingleConns (evs ++ [e])) : SingleConns evs := by
  intro pre x post hx
  have := h pre x (post ++ [e]) (by rw [hx]; simp)
  exact this

/-- Under single connections the table holds exactly the open connections. -/
theorem single_inv (evs : List Event) (h : SingleConns evs) :
    (run evs).stopped = false ∧
    (∀ c, (∃ x, (run evs).peers.get c.peer = some x ∧ x.conn = c) ↔ c ∈ openConns evs) ∧
    (run evs).peers.len = (openConns evs).length ∧ (openConns evs).Nodup ∧
    (∀ p x, (run evs).peers.get p = some x → x.conn.peer = p) := by
  induction evs using List.reverseRecOn with
  | nil => simp [run, init, openConns]
  | append_singleton evs e ih =>
    obtain ⟨h0, h1, h2, h3, h4⟩ := ih (single_prefix h)
    have hlast := h evs e [] rfl
    rw [run_snoc, openConns_snoc]
    unfold step
    rw [if_neg (by rw [h0]; simp)]
    cases e with
    | shutdown => exact absurd hlast id
    | connected c =>
      simp only at hlast
      have hnot : (run evs).peers.get c.peer = none := by
        cases hg : (run evs).peers.get c.peer with
        | none => rfl
        | some x =>
          have hp := h4 _ _ hg
          have : x.conn ∈ openConns evs := (h1 x.conn).1 ⟨x, by rw [hp]; exact hg, rfl⟩
          exact absurd hp (hlast _ this)
      have hhas : (run evs).peers.has c.peer = false := by rw [GoMap.has_eq, hnot]; rfl
      simp only [handleConnected, hhas, Bool.false_eq_true, if_false]
      refine ⟨h0, ?_, ?_, ?_, ?_⟩
      · intro d
        simp only [GoMap.get_set, List.mem_cons]
        by_cases hd : d.peer = c.peer
        · simp only [hd, if_true, Option.some.injEq]
          constructor
          · rintro ⟨x, rfl, hx⟩; exact Or.inl hx.symm
          · rintro (rfl | hm)
            · exact ⟨_, rfl, rfl⟩
            · exact absurd hd (hlast d hm)
        · simp only [hd, if_false]
          rw [h1]
          constructor
          · exact Or.inr
          · rintro (rfl | hm)
            · exact absurd rfl hd
            · exact hm
      · rw [GoMap.len_set, hhas]; simp [h2]
      · rw [List.nodup_cons]
        exact ⟨fun hm => hlast c hm rfl, h3⟩
      · intro p x hx
        rw [GoMap.get_set] at hx
        split at hx
        · simp at hx; subst hx; rename_i h; exact h.symm
        · exact h4 p x hx
    | disconnected c =>
      simp only at hlast
      obtain ⟨x, hx, hxc⟩ := (h1 c).2 hlast
      simp only [handleDisconnected, hx]
      refine ⟨h0, ?_, ?_, ?_, ?_⟩
      · intro d
        simp only [GoMap.get_del]
        rw [List.Nodup.mem_erase_iff h3]
        by_cases hd : d.peer = c.peer
        · simp only [hd, if_true]
          constructor
          · rintro ⟨_, h, _⟩; cases h
          · rintro ⟨hne, hm⟩
            obtain ⟨y, hy, hyd⟩ := (h1 d).2 hm
            rw [hd, hx] at hy
            cases hy
            exact absurd (hyd.symm.trans hxc) hne
        · simp only [hd, if_false]
          rw [h1]
          constructor
          · exact fun hm => ⟨fun e => hd (by rw [e]), hm⟩
          · exact fun hm => hm.2
      · rw [GoMap.len_del, GoMap.has_eq, hx, List.length_erase_of_mem hlast]; simp [h2]
      · exact h3.erase c
      · intro p y hy
        rw [GoMap.get_del] at hy
        split at hy
        · cases hy
        · exact h4 p y hy

theorem upSince_snoc (evs : List Event) (e : Event) (p : Bytes) : UpSince (evs ++ [e]) p ↔
    (UpSince evs p ∧ ∀ d, e = .disconnected d → d.peer ≠ p) ∨ ∃ c, e = .connected c ∧ c.peer = p := by
  constructor
  · rintro ⟨pre, c, post, h, hc, hd⟩
    rcases ForkWatchdog.snoc_split h with ⟨rfl, rfl, e'⟩ | ⟨post', rfl, e'⟩
    · right; exact ⟨c, e'.symm, hc⟩
    · left
      refine ⟨⟨pre, c, post', e', hc, fun d hd' => hd d (by simp [hd'])⟩, fun d he => hd d (by simp [he])⟩
  · rintro (⟨⟨pre, c, post, h, hc, hd⟩, he⟩ | ⟨c, rfl, hc⟩)
    · refine ⟨pre, c, post ++ [e], by rw [h]; simp, hc, fun d hd' => ?_⟩
      rcases List.mem_append.1 hd' with hm | hm
      · exact hd d hm
      · simp at hm; exact he d hm.symm
    · exact ⟨evs, c, [], rfl, hc, by simp⟩

/-- Exact behaviour without any assumption on the connections. -/
theorem tracked_iff (evs : List Event) (hs : Event.shutdown ∉ evs) (p : Bytes) :
    (run evs).peers.has p = true ↔ UpSince evs p := by
  induction evs using List.reverseRecOn with
  | nil =>
    constructor
    · intro h; cases h
    · rintro ⟨pre, c, post, h, _⟩; simp at h
  | append_singleton evs e ih =>
    have hs' : Event.shutdown ∉ evs := fun h => hs (by simp [h])
    have hst : (run evs).stopped = false := by
      cases h : (run evs).stopped
      · rfl
      · exact absurd ((stopped_iff evs).1 h) hs'
    rw [run_snoc, upSince_snoc, ← ih hs']
    unfold step
    rw [if_neg (by rw [hst]; simp)]
    cases e with
    | shutdown => exact absurd (by simp) hs
    | connected c =>
      simp only [handleConnected]
      split
      · rename_i hh
        by_cases hc : c.peer = p
        · subst hc; simp [hh]
        · simp [hc]
      · simp only [GoMap.has_set, Bool.or_eq_true, decide_eq_true_eq]
        by_cases hc : c.peer = p
        · subst hc; simp
        · have : ¬ p = c.peer := fun e => hc e.symm
          simp [hc, this]
    | disconnected c =>
      simp only [handleDisconnected]
      split
      · simp only [GoMap.has_del, Bool.and_eq_true, Bool.not_eq_true', decide_eq_false_iff_not]
        by_cases hc : c.peer = p
        · subst hc; simp
        · have : ¬ p = c.peer := fun e => hc e.symm
          simp [hc, this]
      · rename_i hn
        by_cases hc : c.peer = p
        · subst hc; simp [GoMap.has_eq, hn]
        · simp [hc]

/-- Session bookkeeping. -/
def SInv (s : State) : Prop :=
  (∀ p x, s.peers.get p = some x → s.started[x.session]? = some p ∧ x.session ∉ s.cancelled) ∧
  (∀ i p, s.started[i]? = some p → i ∉ s.cancelled → ∃ x, s.peers.get p = some x ∧ x.session = i) ∧
  (∀ i ∈ s.cancelled, i < s.started.length)

theorem sinv_step (s : State) (e : Event) (h : SInv s) : SInv (step s e) := by
  obtain ⟨h1, h2, h3⟩ := h
  unfold step
  split
  · exact ⟨h1, h2, h3⟩
  cases e with
  | connected c =>
    simp only [handleConnected]
    split
    · exact ⟨h1, h2, h3⟩
    · rename_i hh
      have hnone : s.peers.get c.peer = none := by
        rw [GoMap.has_eq] at hh; simpa using hh
      refine ⟨?_, ?_, ?_⟩
      · intro p x hx
        rw [GoMap.get_set] at hx
        split at hx
        · rename_i hp
          simp at hx; subst hx; subst hp
          refine ⟨by simp, fun hc => ?_⟩
          exact absurd (h3 _ hc) (by simp)
        · obtain ⟨ha, hb⟩ := h1 p x hx
          refine ⟨?_, hb⟩
          have hlt : x.session < s.started.length := (List.getElem?_eq_some_iff.1 ha).1
          show (s.started ++ [c.peer])[x.session]? = some p
          rw [List.getElem?_append_left hlt]; exact ha
      · intro i p hi hc
        simp only at hi hc
        by_cases hlt : i < s.started.length
        · rw [List.getElem?_append_left hlt] at hi
          obtain ⟨x, hx, hxi⟩ := h2 i p hi hc
          refine ⟨x, ?_, hxi⟩
          simp only [GoMap.get_set]
          by_cases hp : p = c.peer
          · subst hp; rw [hnone] at hx; cases hx
          · rw [if_neg hp]; exact hx
        · rw [List.getElem?_append_right (by omega)] at hi
          have : i - s.started.length = 0 := by
            rcases Nat.eq_zero_or_pos (i - s.started.length) with h | h
            · exact h
            · rw [List.getElem?_eq_none (by simp; omega)] at hi; cases hi
          rw [this] at hi
          simp at hi
          subst hi
          exact ⟨_, by simp only [GoMap.get_set, if_true]; rfl, by simp; omega⟩
      · intro i hi
        have := h3 i hi
        simp only [List.length_append, List.length_singleton]; omega
  | disconnected c =>
    simp only [handleDisconnected]
    split
    · rename_i x hx
      refine ⟨?_, ?_, ?_⟩
      · intro p y hy
        rw [GoMap.get_del] at hy
        split at hy
        · cases hy
        · rename_i hp
          obtain ⟨ha, hb⟩ := h1 p y hy
          refine ⟨ha, ?_⟩
          simp only [List.mem_cons, not_or]
          refine ⟨fun he => ?_, hb⟩
          obtain ⟨ha', _⟩ := h1 _ _ hx
          rw [he, ha'] at ha
          simp at ha
          exact hp ha.symm
      · intro i p hi hc
        simp only [List.mem_cons, not_or] at hc
        obtain ⟨y, hy, hyi⟩ := h2 i p hi hc.2
        refine ⟨y, ?_, hyi⟩
        simp only [GoMap.get_del]
        by_cases hp : p = c.peer
        · subst hp; rw [hx] at hy; cases hy; exact absurd hyi.symm hc.1
        · rw [if_neg hp]; exact hy
      · intro i hi
        simp only [List.mem_cons] at hi
        rcases hi with rfl | hi
        · exact (List.getElem?_eq_some_iff.1 (h1 _ _ hx).1).1
        · exact h3 i hi
    · exact ⟨h1, h2, h3⟩
  | shutdown =>
    simp only [shutdown]
    refine ⟨?_, ?_, ?_⟩
    · intro p x hx; simp at hx
    · intro i p hi hc
      simp only [List.mem_append, List.mem_map, Prod.exists, not_or] at hc
      obtain ⟨x, hx, hxi⟩ := h2 i p hi hc.2
      exact absurd ⟨p, x, (GoMap.get_eq_some_iff _ _ _).1 hx, hxi⟩ hc.1
    · intro i hi
      simp only [List.mem_append, List.mem_map, Prod.exists] at hi
      rcases hi with ⟨p, x, hx, rfl⟩ | hi
      · exact (List.getElem?_eq_some_iff.1 (h1 p x ((GoMap.get_eq_some_iff _ _ _).2 hx)).1).1
      · exact h3 i hi

theorem sinv_run (evs : List Event) : SInv (run evs) := by
  induction evs using List.reverseRecOn with
  | nil => refine ⟨?_, ?_, ?_⟩ <;> simp [run, init]
  | append_singleton evs e ih => rw [run_snoc]; exact sinv_step _ _ ih

theorem step_mono (s : State) (e : Event) :
    s.started <+: (step s e).started ∧ ∀ i ∈ s.cancelled, i ∈ (step s e).cancelled := by
  unfold step
  split
  · exact ⟨List.prefix_refl _, fun _ h => h⟩
  cases e with
  | connected c =>
    simp only [handleConnected]
    split
    · exact ⟨List.prefix_refl _, fun _ h => h⟩
    · exact ⟨List.prefix_append _ _, fun _ h => h⟩
  | disconnected c =>
    simp only [handleDisconnected]
    split
    · exact ⟨List.prefix_refl _, fun _ h => by simp [h]⟩
    · exact ⟨List.prefix_refl _, fun _ h => h⟩
  | shutdown => exact ⟨List.prefix_refl _, fun _ h => by simp [shutdown, h]⟩

end CM
end KP2P

import Verif.Proof.Enforce
import Verif.Spec.Enforce
/-!
# C103: the table of the connection manager and the connections there are
-/

namespace KP2P
open KP2P.Enforce
open KP2P.ErrHandler (Event)

variable {d : Spec.Decay} {o : ErrOpts}

private structure InvT (s : Enforce.State) : Prop where
  running : s.cm.stopped = false
  noStop : CM.Event.shutdown ∉ s.notes
  tracked : ∀ p x, s.cm.peers.get p = some x → x.conn.peer = p ∧ (x.conn ∈ s.live ∨ CM.Event.disconnected x.conn ∈ s.notes)
  up : ∀ c, CM.Event.connected c ∈ s.notes → c ∈ s.live ∨ CM.Event.disconnected c ∈ s.notes
  knocking : (s.knocking ++ s.upgrading).Nodup
  fresh : ∀ c ∈ s.knocking ++ s.upgrading, c.num < s.next ∧ ¬ Admitted s.log c
  old : ∀ c, Admitted s.log c → c.num < s.next
  liveNodup : s.live.Nodup
  live : ∀ c, c ∈ s.live ↔ Admitted s.log c ∧ ¬ Ended s.log c
  ended : ∀ c, Ended s.log c → Admitted s.log c
  down : ∀ c, CM.Event.disconnected c ∈ s.notes → Ended s.log c
  found : ∀ c ∈ s.live, CM.Event.connected c ∈ s.notes ∨ (∃ x, s.cm.peers.get c.peer = some x) ∨
    ∃ c', c' ≠ c ∧ Admitted s.log c' ∧ c'.peer = c.peer

private theorem mem_erase_ne {α : Type} {l : List α} {i : Nat} {x y : α} (hx : x ∈ l) (hi : l[i]? = some y) (hne : y ≠ x) :
    x ∈ l.eraseIdx i := by
  rw [List.mem_eraseIdx_iff_getElem?]
  obtain ⟨j, hj⟩ := List.mem_iff_getElem?.1 hx
  exact ⟨j, fun h => hne (by rw [h] at hj; rw [hj] at hi; exact (Option.some.inj hi).symm), hj⟩

/-- Steps that leave connections alone. -/
private theorem InvT.same {s s' : Enforce.State} (hi : InvT s) (h1 : s'.cm = s.cm) (h2 : s'.notes = s.notes)
    (h3 : s'.live = s.live) (h4 : s'.knocking = s.knocking) (h4' : s'.upgrading = s.upgrading) (h5 : s.next ≤ s'.next)
    (h6 : ∀ c, Admitted s'.log c ↔ Admitted s.log c) (h7 : ∀ c, Ended s'.log c ↔ Ended s.log c) : InvT s' := by
  refine ⟨?_, ?_, ?_, ?_, ?_, ?_, ?_, ?_, ?_, ?_, ?_, ?_⟩
  · rw [h1]; exact hi.running
  · rw [h2]; exact hi.noStop
  · rw [h1, h2, h3]; exact hi.tracked
  · rw [h2, h3]; exact hi.up
  · rw [h4, h4']; exact hi.knocking
  · intro c hc
    rw [h4, h4'] at hc
    exact ⟨Nat.lt_of_lt_of_le (hi.fresh c hc).1 h5, fun h => (hi.fresh c hc).2 ((h6 c).1 h)⟩
  · intro c hc; exact Nat.lt_of_lt_of_le (hi.old c ((h6 c).1 hc)) h5
  · rw [h3]; exact hi.liveNodup
  · intro c; rw [h3, h6, h7]; exact hi.live c
  · intro c; rw [h6, h7]; exact hi.ended c
  · intro c; rw [h2, h7]; exact hi.down c
  · intro c hc
    rw [h3] at hc
    rw [h1, h2]
    simp only [h6]
    exact hi.found c hc

private theorem invT_step (s : Enforce.State) (l : Enforce.Label) (s' : Enforce.State) (hi : InvT s)
    (hs : Enforce.step d o s l = some s') : InvT s' := by
  have adm1 : ∀ (x : Obs) (_ : ∀ c t, x ≠ .admitted c t) (c : Conn), Admitted (x :: s.log) c ↔ Admitted s.log c := by
    intro x hx c
    simp only [Admitted, List.mem_cons]
    exact ⟨fun ⟨t, h⟩ => ⟨t, h.resolve_left fun h => hx c t h.symm⟩, fun ⟨t, h⟩ => ⟨t, Or.inr h⟩⟩
  have end1 : ∀ (x : Obs) (_ : ∀ c, x ≠ .closed c ∧ x ≠ .gone c) (c : Conn), Ended (x :: s.log) c ↔ Ended s.log c := by
    intro x hx c
    simp only [Ended, List.mem_cons]
    constructor
    · rintro (h | h)
      · exact Or.inl (h.resolve_left fun h => (hx c).1 h.symm)
      · exact Or.inr (h.resolve_left fun h => (hx c).2 h.symm)
    · rintro (h | h)
      · exact Or.inl (Or.inr h)
      · exact Or.inr (Or.inr h)
  cases tr_of_step s s' l hs with
  | knockIn p a h =>
    have hf : ∀ c, Admitted s.log c → c ≠ ⟨p, a, s.next⟩ := fun c hc he => by
      have := hi.old c hc; rw [he] at this; exact Nat.lt_irrefl _ this
    have kp : (s.knocking ++ [(⟨p, a, s.next⟩ : Conn)] ++ s.upgrading).Perm (⟨p, a, s.next⟩ :: (s.knocking ++ s.upgrading)) := by
      rw [List.append_assoc, List.singleton_append]
      exact List.perm_middle
    refine ⟨hi.running, hi.noStop, hi.tracked, hi.up, ?_, ?_, fun c hc => Nat.lt_succ_of_lt (hi.old c hc), hi.liveNodup,
      hi.live, hi.ended, hi.down, hi.found⟩
    · refine (kp.nodup_iff).2 (List.nodup_cons.2 ⟨fun hx => ?_, hi.knocking⟩)
      exact Nat.lt_irrefl _ (hi.fresh _ hx).1
    · intro c hc
      rcases List.mem_cons.1 (kp.mem_iff.1 hc) with hc | hc
      rotate_left
      · exact ⟨Nat.lt_succ_of_lt (hi.fresh c hc).1, (hi.fresh c hc).2⟩
      · cases hc
        exact ⟨Nat.lt_succ_self _, fun h => hf _ h rfl⟩
  | knockOut p a h => exact hi.same rfl rfl rfl rfl rfl (Nat.le_succ _) (adm1 _ (by simp)) (end1 _ (by simp))
  | secureIn i c hc h =>
    have g := hi.same (s' := { s with log := .allowed c s.now :: s.log }) rfl rfl rfl rfl rfl (Nat.le_refl _)
      (adm1 (.allowed c s.now) (by simp)) (end1 _ (by simp))
    have mv : (s.knocking.eraseIdx i ++ (s.upgrading ++ [c])).Perm (s.knocking ++ s.upgrading) := by
      obtain ⟨hlt, he⟩ := List.getElem?_eq_some_iff.1 hc
      have hpm := List.getElem_cons_eraseIdx_perm hlt
      rw [he] at hpm
      exact (((List.perm_append_singleton c s.upgrading).append_left _).trans List.perm_middle).trans
        (hpm.append_right s.upgrading)
    exact ⟨g.running, g.noStop, g.tracked, g.up, mv.nodup_iff.2 g.knocking, fun x hx => g.fresh x (mv.mem_iff.1 hx), g.old,
      g.liveNodup, g.live, g.ended, g.down, g.found⟩
  | establish i c hc =>
    have out : (s.knocking ++ s.upgrading).Perm (c :: (s.knocking ++ s.upgrading.eraseIdx i)) := by
      obtain ⟨hlt, he⟩ := List.getElem?_eq_some_iff.1 hc
      have hpm := List.getElem_cons_eraseIdx_perm hlt
      rw [he] at hpm
      exact (hpm.symm.append_left _).trans List.perm_middle
    have hmem : c ∈ s.knocking ++ s.upgrading := List.mem_append_right _ (List.mem_of_getElem? hc)
    obtain ⟨hout, hleft⟩ := List.nodup_cons.1 (out.nodup_iff.1 hi.knocking)
    obtain ⟨hnum, hnew⟩ := hi.fresh c hmem
    have adm : ∀ x, Admitted (Obs.admitted c s.now :: s.log) x ↔ x = c ∨ Admitted s.log x := by
      intro x
      simp only [Admitted, List.mem_cons, Obs.admitted.injEq]
      constructor
      · rintro ⟨t, h | h⟩
        · exact Or.inl h.1
        · exact Or.inr ⟨t, h⟩
      · rintro (h | ⟨t, h⟩)
        · exact ⟨s.now, Or.inl ⟨h, rfl⟩⟩
        · exact ⟨t, Or.inr h⟩
    have hend := end1 (Obs.admitted c s.now) (by simp)
    have hnl : c ∉ s.live := fun h => hnew ((hi.live c).1 h).1
    refine ⟨hi.running, ?_, ?_, ?_, hleft, ?_, ?_, ?_, ?_, ?_, ?_, ?_⟩
    · simp [hi.noStop]
    · intro p x hx
      obtain ⟨g1, g2⟩ := hi.tracked p x hx
      exact ⟨g1, g2.imp (List.mem_append_left _) (List.mem_append_left _)⟩
    · intro x hx
      rcases List.mem_append.1 hx with hx | hx
      · exact (hi.up x hx).imp (List.mem_append_left _) (List.mem_append_left _)
      · cases List.mem_singleton.1 hx
        exact Or.inl (List.mem_append_right _ (List.mem_cons_self ..))
    · intro x hx
      have hx' := out.mem_iff.2 (List.mem_cons_of_mem c hx)
      refine ⟨(hi.fresh x hx').1, fun h => ?_⟩
      rcases (adm x).1 h with rfl | h
      · exact hout hx
      · exact (hi.fresh x hx').2 h
    · intro x hx
      rcases (adm x).1 hx with rfl | hx
      · exact hnum
      · exact hi.old x hx
    · refine List.nodup_append.2 ⟨hi.liveNodup, List.nodup_singleton _, ?_⟩
      intro x hx y hy he
      rw [List.mem_singleton.1 hy] at he
      exact hnl (he ▸ hx)
    · intro x
      dsimp only
      rw [adm, hend, List.mem_append, List.mem_singleton, hi.live]
      constructor
      · rintro (h | rfl)
        · exact ⟨Or.inr h.1, h.2⟩
        · exact ⟨Or.inl rfl, fun h => hnew (hi.ended _ h)⟩
      · rintro ⟨h | h, h'⟩
        · exact Or.inr h
        · exact Or.inl ⟨h, h'⟩
    · intro x hx; exact (adm x).2 (Or.inr (hi.ended x ((hend x).1 hx)))
    · intro x hx
      rcases List.mem_append.1 hx with hx | hx
      · exact (hend x).2 (hi.down x hx)
      · cases List.mem_singleton.1 hx
    · intro x hx
      rcases List.mem_append.1 hx with hx | hx
      · rcases hi.found x hx with h | h | ⟨c', h1, h2, h3⟩
        · exact Or.inl (List.mem_append_left _ h)
        · exact Or.inr (Or.inl h)
        · exact Or.inr (Or.inr ⟨c', h1, (adm c').2 (Or.inr h2), h3⟩)
      · cases List.mem_singleton.1 hx
        exact Or.inl (List.mem_append_right _ (List.mem_cons_self ..))
  | secureOut i c hc h =>
    have g := hi.same (s' := { s with log := .refused c s.now :: s.log }) rfl rfl rfl rfl rfl (Nat.le_refl _)
      (adm1 (.refused c s.now) (by simp)) (end1 _ (by simp))
    exact ⟨g.running, g.noStop, g.tracked, g.up, g.knocking.sublist ((List.eraseIdx_sublist ..).append_right _),
      fun x hx => g.fresh x (((List.eraseIdx_sublist s.knocking i).append_right s.upgrading).subset hx), g.old, g.liveNodup, g.live, g.ended, g.down, g.found⟩
  | note i e he hearly =>
    have hmem := List.mem_of_getElem? he
    cases e with
    | shutdown => exact absurd hmem hi.noStop
    | connected c =>
      have keep : ∀ x, CM.Event.disconnected x ∈ s.notes → CM.Event.disconnected x ∈ s.notes.eraseIdx i :=
        fun x hx => mem_erase_ne hx he (by simp)
      have hcm : CM.step s.cm (.connected c) = CM.handleConnected s.cm c := by simp [CM.step, hi.running]
      refine ⟨?_, fun h => hi.noStop (List.mem_of_mem_eraseIdx h), ?_, ?_, hi.knocking, hi.fresh, hi.old, hi.liveNodup, hi.live,
        hi.ended, fun x hx => hi.down x (List.mem_of_mem_eraseIdx hx), ?_⟩
      · dsimp only
        rw [hcm]
        unfold CM.handleConnected
        split
        · exact hi.running
        · exact hi.running
      · intro p x hx
        dsimp only at hx
        rw [hcm] at hx
        unfold CM.handleConnected at hx
        split at hx
        · obtain ⟨g1, g2⟩ := hi.tracked p x hx
          exact ⟨g1, g2.imp id (keep _)⟩
        · simp only [GoMap.get_set] at hx
          split at hx
          · rename_i hp
            cases hx
            exact ⟨hp.symm, (hi.up c hmem).imp id (keep _)⟩
          · obtain ⟨g1, g2⟩ := hi.tracked p x hx
            exact ⟨g1, g2.imp id (keep _)⟩
      · intro x hx
        exact (hi.up x (List.mem_of_mem_eraseIdx hx)).imp id (keep _)
      · intro x hx
        have tr : ∀ p, (∃ y, s.cm.peers.get p = some y) ∨ p = c.peer →
            ∃ y, (CM.step s.cm (.connected c)).peers.get p = some y := by
          intro p hp
          rw [hcm]
          unfold CM.handleConnected
          split
          · rename_i hh
            rcases hp with hp | rfl
            · exact hp
            · exact (GoMap.has_iff _ _).1 hh
          · simp only [GoMap.get_set]
            split
            · exact ⟨_, rfl⟩
            · rename_i hne
              exact hp.resolve_right hne
        rcases hi.found x hx with h | h | h
        · by_cases hxc : x = c
          · exact Or.inr (Or.inl (tr _ (Or.inr (by rw [hxc]))))
          · exact Or.inl (mem_erase_ne h he (by simpa using fun h => hxc h.symm))
        · exact Or.inr (Or.inl (tr _ (Or.inl h)))
        · exact Or.inr (Or.inr h)
    | disconnected c =>
      have hcm : CM.step s.cm (.disconnected c) = CM.handleDisconnected s.cm c := by simp [CM.step, hi.running]
      have hearly' : CM.Event.connected c ∉ s.notes := by simpa [early] using hearly
      have keep : ∀ x, x ≠ c → CM.Event.disconnected x ∈ s.notes → CM.Event.disconnected x ∈ s.notes.eraseIdx i :=
        fun x hxc hx => mem_erase_ne hx he (by simpa using fun h => hxc h.symm)
      have hget : ∀ p, (CM.step s.cm (.disconnected c)).peers.get p = if p = c.peer then none else s.cm.peers.get p := by
        intro p
        rw [hcm]
        unfold CM.handleDisconnected
        split
        · simp only [GoMap.get_del]
        · rename_i hn
          split
          · rename_i hp; rw [hp]; exact hn
          · rfl
      refine ⟨?_, fun h => hi.noStop (List.mem_of_mem_eraseIdx h), ?_, ?_, hi.knocking, hi.fresh, hi.old, hi.liveNodup, hi.live,
        hi.ended, fun x hx => hi.down x (List.mem_of_mem_eraseIdx hx), ?_⟩
      · dsimp only
        rw [hcm]
        unfold CM.handleDisconnected
        split
        · exact hi.running
        · exact hi.running
      · intro p x hx
        dsimp only at hx
        rw [hget] at hx
        split at hx
        · cases hx
        · rename_i hp
          obtain ⟨g1, g2⟩ := hi.tracked p x hx
          exact ⟨g1, g2.imp id (keep _ fun h => hp (by rw [← g1, h]))⟩
      · intro x hx
        have hx' := List.mem_of_mem_eraseIdx hx
        exact (hi.up x hx').imp id (keep _ fun h => hearly' (h ▸ hx'))
      · intro x hx
        have hend := hi.down c hmem
        have hxc : c ≠ x := fun h => ((hi.live x).1 hx).2 (h ▸ hend)
        rcases hi.found x hx with h | ⟨y, h⟩ | h
        · exact Or.inl (mem_erase_ne h he (by simp))
        · by_cases hp : x.peer = c.peer
          · exact Or.inr (Or.inr ⟨c, hxc, hi.ended c hend, hp.symm⟩)
          · refine Or.inr (Or.inl ⟨y, ?_⟩)
            dsimp only
            rw [hget, if_neg hp]
            exact h
        · exact Or.inr (Or.inr h)
  | report c e hc => exact hi.same rfl rfl rfl rfl rfl (Nat.le_refl _) (adm1 _ (by simp)) (end1 _ (by simp))
  | charge => exact hi.same rfl rfl rfl rfl rfl (Nat.le_refl _) (adm1 _ (by simp)) (end1 _ (by simp))
  | ignore => exact hi.same rfl rfl rfl rfl rfl (Nat.le_refl _) (adm1 _ (by simp)) (end1 _ (by simp))
  | close i p hp =>
    have adm : ∀ x, Admitted (((s.live.filter fun c => c.peer == p).map Obs.closed).reverse ++ s.log) x ↔ Admitted s.log x := by
      intro x
      simp [Admitted]
    have hend : ∀ x, Ended (((s.live.filter fun c => c.peer == p).map Obs.closed).reverse ++ s.log) x ↔
        (x ∈ s.live ∧ x.peer = p) ∨ Ended s.log x := by
      intro x
      simp [Ended, or_assoc]
    have dn : ∀ x, x ∈ s.live → x ∈ s.live.filter (fun c => !(c.peer == p)) ∨
        CM.Event.disconnected x ∈ s.notes ++ (s.live.filter fun c => c.peer == p).map CM.Event.disconnected := by
      intro x hx
      by_cases h : x.peer = p
      · exact Or.inr (List.mem_append_right _ (List.mem_map.2 ⟨x, List.mem_filter.2 ⟨hx, by simpa using h⟩, rfl⟩))
      · exact Or.inl (List.mem_filter.2 ⟨hx, by simpa using h⟩)
    refine ⟨hi.running, by simp [hi.noStop], ?_, ?_, hi.knocking, ?_, ?_, hi.liveNodup.sublist List.filter_sublist, ?_, ?_, ?_, ?_⟩
    · intro q x hx
      obtain ⟨g1, g2⟩ := hi.tracked q x hx
      exact ⟨g1, g2.elim (dn _) fun h => Or.inr (List.mem_append_left _ h)⟩
    · intro x hx
      rcases List.mem_append.1 hx with hx | hx
      · exact (hi.up x hx).elim (dn _) fun h => Or.inr (List.mem_append_left _ h)
      · simp at hx
    · intro x hx; exact ⟨(hi.fresh x hx).1, fun h => (hi.fresh x hx).2 ((adm x).1 h)⟩
    · intro x hx; exact hi.old x ((adm x).1 hx)
    · intro x
      dsimp only
      rw [adm, hend, List.mem_filter, hi.live]
      simp only [Bool.not_eq_true', beq_eq_false_iff_ne, ne_eq]
      tauto
    · intro x hx
      rcases (hend x).1 hx with h | h
      · exact (adm x).2 ((hi.live x).1 h.1).1
      · exact (adm x).2 (hi.ended x h)
    · intro x hx
      refine (hend x).2 ?_
      rcases List.mem_append.1 hx with hx | hx
      · exact Or.inr (hi.down x hx)
      · simp only [List.mem_map, List.mem_filter, beq_iff_eq, CM.Event.disconnected.injEq, exists_eq_right] at hx
        exact Or.inl hx
    · intro x hx
      rcases hi.found x (List.mem_of_mem_filter hx) with h | h | ⟨c', h1, h2, h3⟩
      · exact Or.inl (List.mem_append_left _ h)
      · exact Or.inr (Or.inl h)
      · exact Or.inr (Or.inr ⟨c', h1, (adm c').2 h2, h3⟩)
  | hangUp c hc =>
    have adm := adm1 (Obs.gone c) (by simp)
    have hend : ∀ x, Ended (Obs.gone c :: s.log) x ↔ x = c ∨ Ended s.log x := by
      intro x
      simp only [Ended, List.mem_cons, reduceCtorEq, false_or, Obs.gone.injEq]
      tauto
    have dn : ∀ x, x ∈ s.live → x ∈ s.live.erase c ∨ CM.Event.disconnected x ∈ s.notes ++ [.disconnected c] := by
      intro x hx
      by_cases h : x = c
      · exact Or.inr (by simp [h])
      · exact Or.inl ((List.mem_erase_of_ne h).2 hx)
    refine ⟨hi.running, by simp [hi.noStop], ?_, ?_, hi.knocking, ?_, ?_, hi.liveNodup.erase _, ?_, ?_, ?_, ?_⟩
    · intro q x hx
      obtain ⟨g1, g2⟩ := hi.tracked q x hx
      exact ⟨g1, g2.elim (dn _) fun h => Or.inr (List.mem_append_left _ h)⟩
    · intro x hx
      rcases List.mem_append.1 hx with hx | hx
      · exact (hi.up x hx).elim (dn _) fun h => Or.inr (List.mem_append_left _ h)
      · simp at hx
    · intro x hx; exact ⟨(hi.fresh x hx).1, fun h => (hi.fresh x hx).2 ((adm x).1 h)⟩
    · intro x hx; exact hi.old x ((adm x).1 hx)
    · intro x
      dsimp only
      rw [adm, hend, hi.liveNodup.mem_erase_iff, hi.live]
      tauto
    · intro x hx
      rcases (hend x).1 hx with rfl | h
      · exact (adm x).2 ((hi.live x).1 hc).1
      · exact (adm x).2 (hi.ended x h)
    · intro x hx
      refine (hend x).2 ?_
      rcases List.mem_append.1 hx with hx | hx
      · exact Or.inr (hi.down x hx)
      · cases List.mem_singleton.1 hx; exact Or.inl rfl
    · intro x hx
      rcases hi.found x (List.mem_of_mem_erase hx) with h | h | ⟨c', h1, h2, h3⟩
      · exact Or.inl (List.mem_append_left _ h)
      · exact Or.inr (Or.inl h)
      · exact Or.inr (Or.inr ⟨c', h1, (adm c').2 h2, h3⟩)
  | query a => exact hi.same rfl rfl rfl rfl rfl (Nat.le_refl _) (fun _ => Iff.rfl) (fun _ => Iff.rfl)
  | tick n => exact hi.same rfl rfl rfl rfl rfl (Nat.le_refl _) (fun _ => Iff.rfl) (fun _ => Iff.rfl)

private theorem invT_reach {s : Enforce.State} (h : Enforce.Reachable d o s) : InvT s := by
  obtain ⟨t, ls, hr⟩ := h
  refine run_ind invT_step ls (Enforce.init t) s ?_ hr
  constructor <;> simp [Enforce.init, CM.init, Admitted, Ended]

/-- C103. The connections there are: those established at some time and not ended. -/
theorem C103_connections (s : Enforce.State) (h : Enforce.Reachable d o s) (c : Conn) :
    c ∈ s.live ↔ Admitted s.log c ∧ ¬ Ended s.log c := (invT_reach h).live c

/-- When the manager is told of the end of a connection, this has ended. -/
theorem enforce_down (s : Enforce.State) (h : Enforce.Reachable d o s) (c : Conn) (hn : CM.Event.disconnected c ∈ s.notes) :
    Ended s.log c := (invT_reach h).down c hn

/-- Only connections that were let in end. -/
theorem enforce_ended (s : Enforce.State) (h : Enforce.Reachable d o s) (c : Conn) (hn : Ended s.log c) : Admitted s.log c :=
  (invT_reach h).ended c hn

/-- C103. No ghosts: when all notifications have been handled, every tracked peer is connected, by the tracked connection. -/
theorem C103_no_ghosts (s : Enforce.State) (h : Enforce.Reachable d o s) (hn : s.notes = []) (p : Bytes) (x : CM.PeerCtx)
    (hx : s.cm.peers.get p = some x) : x.conn ∈ s.live ∧ x.conn.peer = p := by
  obtain ⟨h1, h2⟩ := (invT_reach h).tracked p x hx
  rw [hn] at h2
  exact ⟨h2.resolve_right (by simp), h1⟩

/-- C103. A peer that has made one connection, and still has it, is tracked by it when all notifications have been
handled. -/
theorem C103_tracked (s : Enforce.State) (h : Enforce.Reachable d o s) (hn : s.notes = []) (c : Conn) (hc : c ∈ s.live)
    (hone : ∀ c', Admitted s.log c' → c'.peer = c.peer → c' = c) :
    ∃ x, s.cm.peers.get c.peer = some x ∧ x.conn = c := by
  have hi := invT_reach h
  rcases hi.found c hc with h1 | ⟨x, hx⟩ | ⟨c', h1, h2, h3⟩
  · rw [hn] at h1; simp at h1
  · obtain ⟨g1, g2⟩ := C103_no_ghosts s h hn _ x hx
    exact ⟨x, hx, hone x.conn ((hi.live _).1 g1).1 g2⟩
  · exact absurd (hone c' h2 h3) h1

private def exRun : List Enforce.Label :=
  [.knock [1] ⟨[10], []⟩, .secure 0, .establish 0, .knock [2] ⟨[20], []⟩, .secure 0, .establish 0,
    .note 1, .note 0, .hangUp ⟨[2], ⟨[20], []⟩, 1⟩, .note 0]

/-- Two peers connect, one leaves, all notifications are handled: the hypotheses of the theorems above are met, and the one
connection left is the only one its peer ever made. -/
example : ∃ s, Enforce.run (fun _ s => s) .default (Enforce.init 0) exRun = some s ∧ s.notes = [] ∧
    s.live = [⟨[1], ⟨[10], []⟩, 0⟩] ∧ s.cm.peers.keys = [[1]] ∧
    (s.log.all fun x => match x with | .admitted c _ => !(c.peer == [1]) || c == ⟨[1], ⟨[10], []⟩, 0⟩ | _ => true) = true :=
  ⟨_, rfl, by decide +kernel, by decide +kernel, by decide +kernel, by decide +kernel⟩

end KP2P

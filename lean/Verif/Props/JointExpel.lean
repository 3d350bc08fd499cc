import Verif.Props.JointSessions
import Verif.Props.Joint
/-!
# C138: peers of another network are thrown out
-/

namespace KP2P
open KP2P.Enforce (Obs Admitted Ended)
open KP2P.PeerConn KP2P.Spec KP2P.Spec.Joint KP2P.Spec.Peering
open KP2P.ErrHandler (Event)

variable {d : Spec.Decay} {eo : ErrOpts} {o : Opts} {t : Time} {σ : Nat → Joint.State} {ev : Nat → Joint.Label}

private theorem exec_run (hx : Exec d eo o t σ ev) (n : Nat) : ∃ ls, Joint.run d eo o (Joint.init t) ls = some (σ n) := by
  induction n with
  | zero => exact ⟨[], by rw [hx.1]; rfl⟩
  | succ n ih =>
    obtain ⟨ls, h⟩ := ih
    exact ⟨ls ++ [ev n], by rw [Joint.run_snoc, h]; exact hx.2 n⟩

/-- What a step is to the rest of the node. -/
private def netLabel (s : Joint.State) : Joint.Label → Enforce.Label
  | .net l => l
  | .gossip c e => .report c e
  | .session _ k l => match s.sess[k]? with
    | some (c, st) => match Joint.told st l with
      | some e => .report c e
      | none => .tick 0
    | none => .tick 0

private theorem net_exec (hx : Exec d eo o t σ ev) :
    Enforce.Exec d eo (fun n => (σ n).net) (fun n => netLabel (σ n) (ev n)) := by
  intro n
  have h := hx.2 n
  simp only
  generalize ev n = l at h ⊢
  generalize σ (n + 1) = s' at h ⊢
  cases Joint.jtr_of_step _ _ _ h with
  | net l m hl g sess hs => exact g
  | gossip c e m g => exact g
  | quiet k l c st st' hl hk g ht => simp [netLabel, hk, ht, Enforce.step]
  | tells k l c st st' e m hl hk h ht hn => simp only [netLabel, hk, ht]; exact hn

private theorem net_fairReports (hf : FairReports σ ev) :
    Enforce.FairReports (fun n => (σ n).net) (fun n => netLabel (σ n) (ev n)) := by
  intro c e n h
  obtain ⟨m, hm, l, h1, h2⟩ := hf c e n h
  exact ⟨m, hm, by simp only [h1, netLabel]; exact h2⟩

private theorem net_fairCloses (hf : FairCloses σ ev) :
    Enforce.FairCloses (fun n => (σ n).net) (fun n => netLabel (σ n) (ev n)) := by
  intro p n h
  obtain ⟨m, hm, l, h1, h2⟩ := hf p n h
  exact ⟨m, hm, by simp only [h1, netLabel]; exact h2⟩

private theorem mem_erase {α : Type} {l : List α} {i : Nat} {x y : α} (hx : x ∈ l) (hi : l[i]? = some y) : x ∈ l.eraseIdx i ∨ y = x := by
  by_cases h : y = x
  · exact Or.inr h
  · left
    rw [List.mem_eraseIdx_iff_getElem?]
    obtain ⟨j, hj⟩ := List.mem_iff_getElem?.1 hx
    exact ⟨j, fun hh => h (by rw [hh] at hj; rw [hj] at hi; exact (Option.some.inj hi).symm), hj⟩

/-- A session keeps an error until it sends it or is told to end. -/
private theorem waits_step (st st' : Session.State) (l : Session.Label) (e : Err) (h : Session.step o st l = some st')
    (hst : st.cancelled = false) (hw : Waits e st) : Waits e st' ∨ Joint.told st l = some e := by
  rcases hw with hw | hw
  · cases l with
    | handshake x =>
      simp only [Session.step] at h
      split at h
      · split at h <;> cases h
        · exact Or.inl (Or.inl hw)
        · exact Or.inl (Or.inl (List.mem_append_left _ hw))
      · cases h
    | retryTimer => simp only [Session.step] at h; split at h <;> cases h; exact Or.inl (Or.inl hw)
    | round x =>
      simp only [Session.step] at h
      split at h
      · split at h <;> cases h <;> exact Or.inl (Or.inl hw)
      · cases h
    | report => simp only [Session.step] at h; split at h <;> cases h; exact Or.inl (Or.inl hw)
    | sleepTimer => simp only [Session.step] at h; split at h <;> cases h; exact Or.inl (Or.inl hw)
    | seeDone => simp [Session.step, hst] at h
    | deliver i =>
      simp only [Session.step] at h
      split at h
      · rename_i x hi
        cases h
        rcases mem_erase hw hi with h | rfl
        · exact Or.inl (Or.inl h)
        · exact Or.inr hi
      · cases h
    | giveUp i => simp [Session.step, hst] at h
    | cancel => cases h; exact Or.inl (Or.inl hw)
  · cases l with
    | handshake x => simp [Session.step, hw] at h
    | retryTimer => simp [Session.step, hw] at h
    | round x => simp [Session.step, hw] at h
    | report => exact Or.inr (by simp [Joint.told, hw])
    | sleepTimer => simp [Session.step, hw] at h
    | seeDone => simp [Session.step, hst] at h
    | deliver i =>
      simp only [Session.step] at h
      split at h
      · cases h; exact Or.inl (Or.inr hw)
      · cases h
    | giveUp i => simp [Session.step, hst] at h
    | cancel => cases h; exact Or.inl (Or.inr hw)

/-- What a step does to a session. -/
private theorem session_step (s s' : Joint.State) (l : Joint.Label) (h : Joint.step d eo o s l = some s') (k : Nat) (c : Conn)
    (st : Session.State) (hk : s.sess[k]? = some (c, st)) :
    ∃ st', s'.sess[k]? = some (c, st') ∧
      (st' = st ∨ (Joint.cancelOf (c, st)).2 = st' ∨ ∃ p l', l = .session p k l' ∧ Joint.isCancel l' = false ∧ Session.step o st l' = some st') := by
  have hset : ∀ (j : Nat) (p : Bytes) (l' : Session.Label) (c' : Conn) (x x' : Session.State), l = .session p j l' →
      Joint.isCancel l' = false → s.sess[j]? = some (c', x) → Session.step o x l' = some x' →
      ∃ st', (s.sess.set j (c', x'))[k]? = some (c, st') ∧
      (st' = st ∨ (Joint.cancelOf (c, st)).2 = st' ∨ ∃ p l', l = .session p k l' ∧ Joint.isCancel l' = false ∧ Session.step o st l' = some st') := by
    intro j p l' c' x x' hl hc hj hx
    rw [List.getElem?_set]
    split
    · rename_i hjk
      subst hjk
      rw [hj] at hk; cases hk
      rw [if_pos (List.getElem?_eq_some_iff.1 hj).1]
      exact ⟨x', rfl, Or.inr (Or.inr ⟨p, l', hl, hc, hx⟩)⟩
    · exact ⟨st, hk, Or.inl rfl⟩
  cases Joint.jtr_of_step _ _ _ h with
  | net l m hl h sess hs =>
    rcases hs with rfl | ⟨c', rfl⟩ | ⟨j, rfl⟩
    · exact ⟨st, hk, Or.inl rfl⟩
    · exact ⟨st, by simp only; rw [List.getElem?_append_left (List.getElem?_eq_some_iff.1 hk).1]; exact hk, Or.inl rfl⟩
    · simp only
      rw [List.getElem?_modify, hk]
      simp only [Option.map_eq_map, Option.map_some]
      split
      · exact ⟨_, rfl, Or.inr (Or.inl rfl)⟩
      · exact ⟨_, rfl, Or.inl rfl⟩
  | gossip c' e' m h => exact ⟨st, hk, Or.inl rfl⟩
  | quiet j l c' x x' hl hj g ht => exact hset j _ l c' x x' rfl hl hj g
  | tells j l c' x x' e' m hl hj g ht hn => exact hset j _ l c' x x' rfl hl hj g

/-- Errors with which a peer is thrown out at once score the limit or more. -/
private theorem limit_reached (hd : d.NonIncreasing) (s : Enforce.State) (hr : Enforce.Reachable d eo s) (c : Conn) (e : Err) (a : MAddr)
    (sc : UInt64) (u : Time) (hc : Obs.charged c e a sc u ∈ s.log) (hov : totalCharged (entriesFor eo a.ip s.hist) < 2 ^ 64)
    (he : eo.threshold ≤ getScoreForError eo e) : eo.threshold ≤ sc := by
  obtain ⟨h₁, h₂, hh, hsc⟩ := C98_amount s hr c e a sc u hc
  have hb := balance_at_le d hd (entriesFor eo a.ip h₁) u (inOrder_of (eo := eo) hr a.ip h₁ h₂ u _ hh)
  rw [Joint.totalCharged_paid, hh, Joint.paid_append] at hov
  have h3 : (getScoreForError eo e).toNat ≤ Joint.paid (fun e => (getScoreForError eo e).toNat) a.ip ((u, Event.perr c.peer (some a) e) :: h₂) := by
    simp [Joint.paid]
  rw [Joint.totalCharged_paid] at hb
  rw [UInt64.le_iff_toNat_le] at he ⊢
  rw [hsc, UInt64.toNat_add, Nat.mod_eq_of_lt (by omega)]
  omega

/-- C138. When an exchange with a connected peer has ended with an error that reaches the limit by itself, then at some time
there is no connection with this peer, or the session was told to end. -/
theorem C138_thrown_out (hd : d.NonIncreasing) (hx : Exec d eo o t σ ev) (hf1 : FairSends σ ev) (hf2 : FairReports σ ev)
    (hf3 : FairCloses σ ev) (hov : NoOverflow eo σ) (n k : Nat) (c : Conn) (st : Session.State) (e : Err)
    (hk : (σ n).sess[k]? = some (c, st)) (hw : Waits e st) (he : eo.threshold ≤ getScoreForError eo e) :
    ∃ m, n ≤ m ∧ ((∀ c' ∈ (σ m).net.live, c'.peer ≠ c.peer) ∨ ∃ st', (σ m).sess[k]? = some (c, st') ∧ st'.cancelled = true) := by
  by_contra hno
  have hgo : ∀ m, n ≤ m → ∀ st', (σ m).sess[k]? = some (c, st') → st'.cancelled = false := by
    intro m hm st' h
    cases hc : st'.cancelled with
    | false => rfl
    | true => exact absurd ⟨m, hm, Or.inr ⟨st', h, hc⟩⟩ hno
  have hthere : ∀ m, n ≤ m → ∃ st', (σ m).sess[k]? = some (c, st') := by
    intro m hm
    obtain ⟨j, rfl⟩ := Nat.exists_eq_add_of_le hm
    induction j with
    | zero => exact ⟨st, hk⟩
    | succ j ih =>
      obtain ⟨x, hx1⟩ := ih (by omega)
      obtain ⟨y, hy, _⟩ := session_step _ _ _ (hx.2 (n + j)) k c x hx1
      exact ⟨y, hy⟩
  -- the error is sent
  obtain ⟨m, hm, hsend⟩ : ∃ m, n ≤ m ∧ Sends k e (σ m) (ev m) := by
    by_contra hns
    refine hns (hf1 k e n fun m hm => ?_)
    obtain ⟨j, rfl⟩ := Nat.exists_eq_add_of_le hm
    induction j with
    | zero => exact ⟨c, st, hk, hgo n (Nat.le_refl _) st hk, hw⟩
    | succ j ih =>
      obtain ⟨c', x, hx1, hx2, hx3⟩ := ih (by omega)
      obtain ⟨st0, h0⟩ := hthere (n + j) (by omega)
      rw [h0] at hx1; cases hx1
      obtain ⟨y, hy, hcase⟩ := session_step _ _ _ (hx.2 (n + j)) k c x h0
      have hyc := hgo (n + j + 1) (by omega) y hy
      refine ⟨c, y, hy, hyc, ?_⟩
      rcases hcase with rfl | rfl | ⟨p, l', hl, hl', hst⟩
      · exact hx3
      · exact hx3
      · exact (waits_step x y l' e hst hx2 hx3).resolve_right fun ht => hns ⟨n + j, by omega, p, l', c, x, hl, h0, ht⟩
  -- the error handler is told
  have herr : (c, e) ∈ (σ (m + 1)).net.errs := by
    obtain ⟨p, l', c', x, hl, hx1, ht⟩ := hsend
    obtain ⟨st0, h0⟩ := hthere m hm
    rw [h0] at hx1; cases hx1
    have hst := hx.2 m
    rw [hl] at hst
    generalize hs' : σ (m + 1) = s' at hst
    cases Joint.jtr_of_step _ _ _ hst with
    | quiet k l c' st1 st' hl hk h ht' => rw [h0] at hk; cases hk; rw [ht] at ht'; cases ht'
    | tells k l c' st1 st' e' n' hl hk h ht' hn =>
      rw [h0] at hk; cases hk; rw [ht] at ht'; cases ht'
      cases Enforce.tr_of_step _ _ _ hn with
      | report => simp
  -- it is dealt with
  obtain ⟨j, hj, y, hy, hlog⟩ := C101_dealt_with _ _ (net_exec hx) (net_fairReports hf2) (m + 1) c e herr
  obtain ⟨ls, hrun⟩ := exec_run hx j
  obtain ⟨st1, h1⟩ := hthere j (by omega)
  have haddr := (C136_connected t ls _ hrun c st1 (List.mem_of_getElem? h1) (hgo j (by omega) st1 h1)).1
  rcases hy with rfl | ⟨a, sc, u, rfl⟩
  · have hst := net_exec hx j
    simp only at hst
    generalize hs' : (σ (j + 1)).net = s' at hst hlog
    generalize netLabel (σ j) (ev j) = l at hst
    cases Enforce.tr_of_step _ _ _ hst with
    | ignore i c' e' hi hg =>
      simp only [List.cons.injEq, Obs.ignored.injEq, and_true] at hlog
      rw [← hlog.1, hg] at haddr
      cases haddr
    | close i q hi =>
      have h0 := congrArg (List.countP fun x => match x with | Obs.ignored _ _ => true | _ => false) hlog
      rw [List.countP_append, List.countP_cons, List.countP_eq_zero.2] at h0
      · simp at h0
      · intro x hx
        simp only [List.mem_reverse, List.mem_map] at hx
        obtain ⟨_, _, rfl⟩ := hx
        simp
    | _ => simp at hlog
  · obtain ⟨ls', hrun'⟩ := exec_run hx (j + 1)
    have hsc := limit_reached hd _ (Joint.net_reach t ls' _ hrun') c e a sc u (by rw [hlog]; exact List.mem_cons_self ..) (hov (j + 1) a.ip) he
    obtain ⟨i, hi, hgone⟩ := C101_disconnected _ _ (net_exec hx) (net_fairCloses hf3) j c e a sc u hlog hsc
    exact hno ⟨i, by omega, Or.inl hgone⟩

private theorem ended_step (s n : Enforce.State) (l : Enforce.Label) (h : Enforce.step d eo s l = some n) (c : Conn)
    (hc : Ended s.log c) : Ended n.log c := by
  have hsub : s.log ⊆ n.log := by
    cases Enforce.tr_of_step s n l h with
    | close i q hi => exact fun x hx => List.mem_append_right _ hx
    | tick => exact fun x hx => hx
    | note => exact fun x hx => hx
    | query => exact fun x hx => hx
    | knockIn => exact fun x hx => hx
    | _ => exact fun x hx => List.mem_cons_of_mem _ hx
  exact hc.imp (fun h => hsub h) fun h => hsub h

/-- C138. A session is told to end only after a connection with its peer has ended. -/
theorem C138_told_to_end (t : Time) (ls : List Joint.Label) (s : Joint.State) (hr : Joint.run d eo o (Joint.init t) ls = some s) (k : Nat)
    (c : Conn) (st : Session.State) (hk : s.sess[k]? = some (c, st)) (hst : st.cancelled = true) :
    ∃ c', c'.peer = c.peer ∧ Ended s.net.log c' := by
  have hmain : ∃ ls, Joint.run d eo o (Joint.init t) ls = some s ∧ ∀ (k : Nat) (c : Conn) (st : Session.State), s.sess[k]? = some (c, st) → st.cancelled = true →
      ∃ c', c'.peer = c.peer ∧ Ended s.net.log c' := by
    refine Joint.run_ind (P := fun _ s => ∃ ls, Joint.run d eo o (Joint.init t) ls = some s ∧ ∀ (k : Nat) (c : Conn) (st : Session.State), s.sess[k]? = some (c, st) →
      st.cancelled = true → ∃ c', c'.peer = c.peer ∧ Ended s.net.log c') t ⟨[], rfl, fun _ _ _ h => (by simp [Joint.init] at h)⟩ ?_ ls s hr
    rintro _ s l s' ⟨ls, hrun, ih⟩ hs
    have hreach := Joint.net_reach t ls s hrun
    have hag := joint_agree t ls s hrun
    refine ⟨ls ++ [l], by rw [Joint.run_snoc, hrun]; exact hs, ?_⟩
    have hset : ∀ (j : Nat) (c1 : Conn) (x x' : Session.State) (l' : Session.Label) (m : Enforce.State), s.sess[j]? = some (c1, x) →
        Session.step o x l' = some x' → Joint.isCancel l' = false → (∀ c, Ended s.net.log c → Ended m.log c) →
        ∀ (k : Nat) (c : Conn) (st : Session.State), (s.sess.set j (c1, x'))[k]? = some (c, st) → st.cancelled = true → ∃ c', c'.peer = c.peer ∧ Ended m.log c' := by
      intro j c1 x x' l' m hj hx hl' hm k c st hk hst
      rw [List.getElem?_set] at hk
      split at hk
      · split at hk
        · cases hk
          obtain ⟨c', h1, h2⟩ := ih j c1 x hj (by rw [← (joint_told_log x x' l' hx hl').2]; exact hst)
          exact ⟨c', h1, hm _ h2⟩
        · cases hk
      · obtain ⟨c', h1, h2⟩ := ih k c st hk hst
        exact ⟨c', h1, hm _ h2⟩
    cases l with
    | net l =>
      obtain ⟨hn, hcase⟩ := joint_net_follow s s' l hs
      have hend := ended_step _ _ _ hn
      intro k c st hk hst
      rcases hcase with ⟨_, h2⟩ | ⟨e, he, h1, h2⟩
      · rw [h2] at hk
        obtain ⟨c', h1, h2⟩ := ih k c st hk hst
        exact ⟨c', h1, hend _ h2⟩
      · rw [h2] at hk
        cases e with
        | shutdown => exact absurd he hag.notes
        | connected c1 =>
          simp only [Joint.follow] at hk
          split at hk
          · obtain ⟨c', h1, h2⟩ := ih k c st hk hst
            exact ⟨c', h1, hend _ h2⟩
          · rw [List.getElem?_append] at hk
            split at hk
            · obtain ⟨c', h1, h2⟩ := ih k c st hk hst
              exact ⟨c', h1, hend _ h2⟩
            · have := List.mem_of_getElem? hk
              simp only [List.mem_singleton, Prod.mk.injEq] at this
              rw [this.2] at hst; cases hst
        | disconnected c1 =>
          simp only [Joint.follow] at hk
          split at hk
          · rename_i y hy
            rw [if_neg (by rw [hag.going]; decide), List.getElem?_modify] at hk
            simp only [Option.map_eq_map, Option.map_eq_some_iff] at hk
            obtain ⟨⟨c0, st0⟩, hz, hk⟩ := hk
            split at hk
            · rename_i hkk
              cases hk
              obtain ⟨g1, st2, g2⟩ := hag.tracked _ y hy
              rw [← hkk, g2] at hz; cases hz
              exact ⟨c1, g1.symm, hend _ (enforce_down s.net hreach c1 he)⟩
            · cases hk
              obtain ⟨c', h1, h2⟩ := ih k _ _ hz hst
              exact ⟨c', h1, hend _ h2⟩
          · obtain ⟨c', h1, h2⟩ := ih k c st hk hst
            exact ⟨c', h1, hend _ h2⟩
    | gossip c1 e1 =>
      cases Joint.jtr_of_step _ _ _ hs with
      | gossip c' e' m h =>
        intro k c st hk hst
        obtain ⟨c', h1, h2⟩ := ih k c st hk hst
        exact ⟨c', h1, ended_step _ _ _ h _ h2⟩
    | session p j l =>
      cases Joint.jtr_of_step _ _ _ hs with
      | quiet j l c' x x' hl hj h ht => exact hset j c' x x' l s.net hj h hl fun _ h => h
      | tells j l c' x x' e' m hl hj h ht hn => exact hset j c' x x' l m hj h hl fun c hc => ended_step _ _ _ hn c hc
  obtain ⟨_, _, h⟩ := hmain
  exact h k c st hk hst

/-- C138. A peer that has made one connection only, and whose exchange over it has ended with an error that reaches the limit by itself,
does not stay. -/
theorem C138_does_not_stay (hd : d.NonIncreasing) (hx : Exec d eo o t σ ev) (hf1 : FairSends σ ev) (hf2 : FairReports σ ev)
    (hf3 : FairCloses σ ev) (hov : NoOverflow eo σ) (n k : Nat) (c : Conn) (st : Session.State) (e : Err)
    (hk : (σ n).sess[k]? = some (c, st)) (hw : Waits e st) (he : eo.threshold ≤ getScoreForError eo e)
    (hone : ∀ m c', Admitted (σ m).net.log c' → c'.peer = c.peer → c' = c) :
    ∃ m, n ≤ m ∧ ∀ c' ∈ (σ m).net.live, c'.peer ≠ c.peer := by
  obtain ⟨m, hm, h | ⟨st', h1, h2⟩⟩ := C138_thrown_out hd hx hf1 hf2 hf3 hov n k c st e hk hw he
  · exact ⟨m, hm, h⟩
  obtain ⟨ls, hrun⟩ := exec_run hx m
  obtain ⟨c', hp, hend⟩ := C138_told_to_end t ls _ hrun k c st' h1 h2
  have hreach := Joint.net_reach t ls _ hrun
  refine ⟨m, hm, fun c2 hc2 hp2 => ?_⟩
  have h3 := (C103_connections _ hreach c2).1 hc2
  have h4 := enforce_ended _ hreach c' hend
  rw [hone m c' h4 hp, ← hone m c2 h3.1 hp2] at hend
  exact h3.2 hend

/-- C138. By default these are the errors that mean that the peer is of another kind, on another chain, or attacks. -/
theorem C138_grave (e : Err) : ErrOpts.default.threshold ≤ getScoreForError .default e ↔ grave e = true := by
  constructor
  · intro h
    cases hg : grave e with
    | true => rfl
    | false =>
      have := mild_score e hg
      have h2 := UInt64.le_iff_toNat_le.1 h
      have h3 := UInt64.le_iff_toNat_le.1 this
      have h4 : ErrOpts.default.threshold.toNat = 100000 := rfl
      have h5 : (5000 : UInt64).toNat = 5000 := rfl
      omega
  · intro h
    have key : ∀ a b : Sentinel, e.is a = true → a ≠ b → e.is b = false := fun a b h1 h2 => by
      rw [← Bool.not_eq_true]; exact fun hc => h2 (Err.is_unique h1 hc)
    simp only [grave, Bool.or_eq_true] at h
    unfold getScoreForError
    rcases h with (((h | h) | h) | h) | h <;> simp [key _ _ h] <;> simp [h] <;> decide

/-- C138. A peer that names another chain is such a peer: the handshake ends with such an error. -/
theorem C138_stranger (e : HsEnv) (mine its : Bytes) (h1 : e.localChainID = .ok mine) (h2 : e.peerChainID = .ok its) (hne : mine ≠ its)
    (hv : ∀ x, e.version = .error x → x.is .protocolMissing = true) : ∃ x, (handshake o e).err = some x ∧ grave x = true := by
  have hrest : (handshakeRest o e).2 = some (.sentinel .chainIDMismatch) := by simp [handshakeRest, h1, h2, hne]
  refine ⟨.sentinel .chainIDMismatch, ?_, rfl⟩
  unfold handshake
  cases hx : e.version with
  | ok v => exact hrest
  | error x => simp only [hv x hx, if_true]; exact hrest

/-! ### Example: a peer of another chain connects, and is thrown out; then nothing happens any more. -/

private def xhs : HsEnv := { honHs with peerChainID := .ok [8] }

private def xevs : List Joint.Label :=
  [.net (.knock hp hhome), .net (.secure 0), .net (.establish 0), .net (.note 0), .session hp 0 (.handshake xhs),
    .session hp 0 (.deliver 0), .net (.handle 0), .net (.close 0), .net (.note 0)]

private def xev (n : Nat) : Joint.Label := (xevs[n]?).getD (.net (.tick 0))

private def xst : Nat → Joint.State
  | 0 => Joint.init 0
  | n + 1 => (Joint.step (fun _ s => s) .default hopts (xst n) (xev n)).getD (Joint.init 0)

private theorem xidle : Joint.step (fun _ s => s) .default hopts (xst 9) (.net (.tick 0)) = some (xst 9) := by
  have : Joint.dead (xst 9) = false := by decide +kernel
  simp [Joint.step, this, Joint.isReport, Enforce.step]

private theorem xst_end (k : Nat) : xst (9 + k) = xst 9 := by
  induction k with
  | zero => rfl
  | succ k ih =>
    have he : xev (9 + k) = .net (.tick 0) := by simp [xev, xevs]
    have : xst (9 + (k + 1)) = (Joint.step (fun _ s => s) .default hopts (xst (9 + k)) (xev (9 + k))).getD (Joint.init 0) := rfl
    rw [this, he, ih, xidle]
    rfl

private theorem paid_bound (w : Err → Nat) (ip : Bytes) (hist : List (Int × Event)) :
    Joint.paid w ip hist ≤ (hist.map fun x => match x.2 with | .perr _ _ e => w e | _ => 0).sum := by
  induction hist with
  | nil => exact Nat.le_refl _
  | cons x hist ih =>
    simp only [Joint.paid, List.map_cons, List.sum_cons] at ih ⊢
    obtain ⟨u, y⟩ := x
    cases y with
    | perr p a e =>
      cases a with
      | none => simp only; omega
      | some a => simp only; split <;> omega
    | canConnect a => simp only; omega
    | getScore a => simp only; omega

example : Exec (fun _ s => s) .default hopts 0 xst xev ∧ FairSends xst xev ∧ FairReports xst xev ∧ FairCloses xst xev ∧
    NoOverflow .default xst ∧ (∃ st e, (xst 5).sess[0]? = some (hconn, st) ∧ Waits e st ∧ grave e = true) ∧ hconn ∈ (xst 5).net.live ∧
    ∃ m, 5 ≤ m ∧ ∀ c ∈ (xst m).net.live, c.peer ≠ hp := by
  have hexec : Exec (fun _ s => s) .default hopts 0 xst xev := by
    refine ⟨rfl, fun n => ?_⟩
    by_cases hn : n < 9
    · match n, hn with
      | 0, _ => rfl
      | 1, _ => rfl
      | 2, _ => rfl
      | 3, _ => rfl
      | 4, _ => rfl
      | 5, _ => rfl
      | 6, _ => rfl
      | 7, _ => rfl
      | 8, _ => rfl
    · obtain ⟨k, rfl⟩ := Nat.exists_eq_add_of_le (Nat.le_of_not_lt hn)
      have he : xev (9 + k) = .net (.tick 0) := by simp [xev, xevs]
      have h1 := xst_end (k + 1)
      rw [xst_end k, he, show 9 + k + 1 = 9 + (k + 1) from rfl, h1]
      exact xidle
  have f1 : FairSends xst xev := by
    intro k e n h
    obtain ⟨c, st, h1, h2, _⟩ := h (9 + n) (by omega)
    rw [xst_end] at h1
    have hall : (xst 9).sess.all (fun y => y.2.cancelled) = true := by decide +kernel
    have := List.all_eq_true.1 hall _ (List.mem_of_getElem? h1)
    simp only [h2] at this
    cases this
  have f2 : FairReports xst xev := by
    intro c e n h
    have h1 := h (9 + n) (by omega)
    rw [xst_end] at h1
    have : (xst 9).net.errs = [] := by decide +kernel
    rw [this] at h1
    cases h1
  have f3 : FairCloses xst xev := by
    intro c n h
    have h1 := h (9 + n) (by omega)
    rw [xst_end] at h1
    have : (xst 9).net.closing = [] := by decide +kernel
    rw [this] at h1
    cases h1
  have hov : NoOverflow .default xst := by
    intro n ip
    rw [Joint.totalCharged_paid]
    refine Nat.lt_of_le_of_lt (paid_bound _ ip _) ?_
    have hall : (List.range 10).all (fun n => decide (((xst n).net.hist.map fun x => match x.2 with
      | .perr _ _ e => (getScoreForError .default e).toNat | _ => 0).sum < 2 ^ 64)) = true := by decide +kernel
    by_cases hn : n < 10
    · exact of_decide_eq_true (List.all_eq_true.1 hall n (List.mem_range.2 hn))
    · obtain ⟨k, rfl⟩ := Nat.exists_eq_add_of_le (show 9 ≤ n by omega)
      rw [xst_end]
      exact of_decide_eq_true (List.all_eq_true.1 hall 9 (List.mem_range.2 (by omega)))
  refine ⟨hexec, f1, f2, f3, hov, ⟨_, .sentinel .chainIDMismatch, rfl, Or.inl (.head _), rfl⟩, .head _, ?_⟩
  obtain ⟨m, hm, h | ⟨st', h1, h2⟩⟩ := C138_thrown_out (fun _ _ _ => Nat.le_refl _) hexec f1 f2 f3 hov 5 0 hconn _
    (.sentinel .chainIDMismatch) rfl (Or.inl (.head _)) ((C138_grave _).2 rfl)
  · exact ⟨m, hm, h⟩
  · obtain ⟨ls, hrun⟩ := exec_run hexec m
    refine ⟨9, by omega, ?_⟩
    have : (xst 9).net.live = [] := by decide +kernel
    rw [this]
    exact fun _ h => (by cases h)

end KP2P

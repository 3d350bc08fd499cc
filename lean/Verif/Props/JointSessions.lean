import Verif.Proof.Joint
import Verif.Props.ConnManager
import Verif.Props.EnforceCount
import Verif.Props.EnforceTable
import Verif.Props.Session
/-!
# C135 and C136: sessions, the peers they belong to, and the errors they answer for
-/

namespace KP2P
open KP2P.Enforce (Obs Admitted)
open KP2P.PeerConn KP2P.Spec KP2P.Spec.Joint
open KP2P.Spec.Session (reports drops failures)

variable {d : Spec.Decay} {eo : ErrOpts} {o : Opts}

/-! ## C135 -/

private theorem sum_set {α : Type} (f : α → Nat) (l : List α) (k : Nat) (x y : α) (h : l[k]? = some x) :
    ((l.set k y).map f).sum + f x = (l.map f).sum + f y := by
  induction l generalizing k with
  | nil => simp at h
  | cons z l ih =>
    cases k with
    | zero =>
      simp only [List.getElem?_cons_zero, Option.some.injEq] at h
      subst h
      simp only [List.set_cons_zero, List.map_cons, List.sum_cons]
      omega
    | succ k =>
      have := ih k (by simpa using h)
      simp only [List.set_cons_succ, List.map_cons, List.sum_cons] at this ⊢
      omega

private theorem sum_modify {α : Type} (f : α → Nat) (g : α → α) (hf : ∀ x, f (g x) = f x) (l : List α) (k : Nat) :
    ((l.modify k g).map f).sum = (l.map f).sum := by
  induction l generalizing k with
  | nil => cases k <;> rfl
  | cons z l ih =>
    cases k with
    | zero => simp [hf]
    | succ k => simp [ih k]

/-- What a session sends is what its log says. -/
theorem joint_told_log (st st' : Session.State) (l : Session.Label) (h : Session.step o st l = some st') (hl : Joint.isCancel l = false) :
    reports st'.log = (Joint.told st l).toList ++ reports st.log ∧ st'.cancelled = st.cancelled := by
  cases l with
  | handshake e =>
    simp only [Session.step] at h
    split at h
    · split at h <;> cases h <;> exact ⟨rfl, rfl⟩
    · cases h
  | retryTimer =>
    simp only [Session.step] at h
    split at h <;> cases h
    exact ⟨rfl, rfl⟩
  | round e =>
    simp only [Session.step] at h
    split at h
    · split at h <;> cases h <;> exact ⟨rfl, rfl⟩
    · cases h
  | report =>
    simp only [Session.step] at h
    split at h
    · rename_i e hp; cases h; simp [Joint.told, hp, reports]
    · cases h
  | sleepTimer =>
    simp only [Session.step] at h
    split at h <;> cases h
    exact ⟨rfl, rfl⟩
  | seeDone =>
    simp only [Session.step] at h
    split at h
    · split at h <;> cases h <;> exact ⟨rfl, rfl⟩
    · cases h
  | deliver i =>
    simp only [Session.step] at h
    split at h
    · rename_i e hi; cases h; simp [Joint.told, hi, reports]
    · cases h
  | giveUp i =>
    simp only [Session.step] at h
    split at h
    · split at h <;> cases h
      exact ⟨rfl, rfl⟩
    · cases h
  | cancel => cases hl

private theorem cancel_reports (y : Conn × Session.State) : reports (Joint.cancelOf y).2.log = reports y.2.log := rfl

private theorem count_net (s n : Enforce.State) (l : Enforce.Label) (hl : Joint.isReport l = false) (c : Conn) (e : Err)
    (h : Enforce.step d eo s l = some n) : n.log.count (.reported c e) = s.log.count (.reported c e) := by
  cases Enforce.tr_of_step s n l h with
  | report => cases hl
  | close i q hi =>
    simp only [List.count_append]
    rw [List.count_eq_zero.2 (by simp), Nat.zero_add]
  | _ => simp [List.count_cons]

private theorem count_report (s n : Enforce.State) (c c' : Conn) (e e' : Err) (h : Enforce.step d eo s (.report c' e') = some n) :
    n.log.count (.reported c e) = s.log.count (.reported c e) + if c' = c ∧ e' = e then 1 else 0 := by
  cases Enforce.tr_of_step s n _ h with
  | report => simp [List.count_cons]

/-- C135. What the error handler hears of a connection is exactly what the sessions over this connection and gossip send. -/
theorem C135_heard (t : Time) (ls : List Joint.Label) (s : Joint.State) (hr : Joint.run d eo o (Joint.init t) ls = some s) (c : Conn)
    (e : Err) : s.net.log.count (.reported c e) = sent c e s.sess + gossiped c e ls := by
  refine Joint.run_ind (P := fun ls s => s.net.log.count (.reported c e) = sent c e s.sess + gossiped c e ls) t rfl ?_ ls s hr
  intro ls s l s' ih hs
  have hg : gossiped c e (ls ++ [l]) = gossiped c e ls + gossiped c e [l] := by simp [gossiped]
  rw [hg]
  cases Joint.jtr_of_step s s' l hs with
  | net l n hl h sess hsess =>
    have h1 := count_net s.net n l hl c e h
    have h2 : sent c e sess = sent c e s.sess := by
      rcases hsess with rfl | ⟨c', rfl⟩ | ⟨k, rfl⟩
      · rfl
      · simp [sent, Session.init, reports]
      · exact sum_modify _ _ (fun x => by simp [Joint.cancelOf, reports]) _ _
    have h3 : gossiped c e [.net l] = 0 := rfl
    simp only
    omega
  | gossip c' e' n h =>
    have h1 := count_report s.net n c c' e e' h
    have h3 : gossiped c e [.gossip c' e'] = if c' = c ∧ e' = e then 1 else 0 := by
      simp only [gossiped, List.countP_cons, List.countP_nil, Nat.zero_add, decide_eq_true_eq]
    simp only
    omega
  | quiet k l c' st st' hl hk h ht =>
    have h1 := sum_set (fun y : Conn × Session.State => if y.1 = c then (reports y.2.log).count e else 0) s.sess k _ (c', st') hk
    have h2 := (joint_told_log st st' l h hl).1
    rw [ht] at h2
    have h3 : gossiped c e [.session c'.peer k l] = 0 := rfl
    simp only [h2, Option.toList_none, List.nil_append] at h1
    simp only [sent] at ih ⊢
    omega
  | tells k l c' st st' e' n hl hk h ht hn =>
    have h1 := sum_set (fun y : Conn × Session.State => if y.1 = c then (reports y.2.log).count e else 0) s.sess k _ (c', st') hk
    have h2 := (joint_told_log st st' l h hl).1
    rw [ht] at h2
    have h3 : gossiped c e [.session c'.peer k l] = 0 := rfl
    have h4 := count_report s.net n c c' e e' hn
    simp only [h2, Option.toList_some, List.singleton_append, List.count_cons, beq_iff_eq] at h1
    simp only [sent] at ih ⊢
    by_cases hc : c' = c
    · subst hc
      by_cases he : e' = e <;> simp only [he, if_true, if_false, and_true, and_false] at h1 h4 <;> omega
    · simp only [hc, if_false, false_and] at h1 h4; omega

/-- C135. Every session behaves as sessions do (`C43`). -/
theorem C135_sessions (t : Time) (ls : List Joint.Label) (s : Joint.State) (hr : Joint.run d eo o (Joint.init t) ls = some s) :
    ∀ y ∈ s.sess, Session.Reachable o y.2 := by
  have more : ∀ (st st' : Session.State) (l : Session.Label), Session.Reachable o st → Session.step o st l = some st' →
      Session.Reachable o st' := by
    rintro st st' l ⟨ls, h⟩ hs
    refine ⟨ls ++ [l], ?_⟩
    clear hr
    revert h
    generalize Session.init = x
    induction ls generalizing x with
    | nil => intro h; cases h; simp [Session.run, hs]
    | cons a ls ih =>
      intro h
      simp only [List.cons_append, Session.run] at h ⊢
      split at h
      · exact ih _ h
      · cases h
  refine Joint.run_ind (P := fun _ s => ∀ y ∈ s.sess, Session.Reachable o y.2) t (fun _ h => (by cases h)) ?_ ls s hr
  intro ls s l s' ih hs
  have setc : ∀ (k : Nat) (c : Conn) (st st' : Session.State) (l : Session.Label), s.sess[k]? = some (c, st) →
      Session.step o st l = some st' → ∀ y ∈ s.sess.set k (c, st'), Session.Reachable o y.2 := by
    intro k c st st' l hk h y hy
    rcases List.mem_or_eq_of_mem_set hy with hy | rfl
    · exact ih y hy
    · exact more st st' l (ih _ (List.mem_of_getElem? hk)) h
  cases Joint.jtr_of_step s s' l hs with
  | net l n hl h sess hsess =>
    rcases hsess with rfl | ⟨c', rfl⟩ | ⟨k, rfl⟩
    · exact ih
    · intro y hy
      rcases List.mem_append.1 hy with hy | hy
      · exact ih y hy
      · simp only [List.mem_singleton] at hy; subst hy; exact ⟨[], rfl⟩
    · intro y hy
      obtain ⟨j, hj⟩ := List.mem_iff_getElem?.1 hy
      rw [List.getElem?_modify] at hj
      simp only [Option.map_eq_map, Option.map_eq_some_iff] at hj
      obtain ⟨z, hz, rfl⟩ := hj
      have := ih z (List.mem_of_getElem? hz)
      split
      · exact more _ _ .cancel this rfl
      · exact this
  | gossip c' e' n h => exact ih
  | quiet k l c' st st' hl hk h ht => exact setc k c' st st' l hk h
  | tells k l c' st st' e' n hl hk h ht hn => exact setc k c' st st' l hk h

/-- C135. No error is charged more often than it occurred in exchanges over the same connection, or was found by gossip in a message
received over it: nobody pays for others, and nobody pays twice. -/
theorem C135_charged (t : Time) (ls : List Joint.Label) (s : Joint.State) (hr : Joint.run d eo o (Joint.init t) ls = some s) (c : Conn)
    (e : Err) : s.net.log.countP (fun | .charged c' x _ _ _ => decide (c' = c ∧ x = e) | _ => false) ≤ failed c e s.sess + gossiped c e ls := by
  have h1 := C135_heard t ls s hr c e
  have h2 := C101_once s.net (Joint.net_reach t ls s hr) c e
  have h3 : s.net.log.countP (fun | .charged c' x _ _ _ => decide (c' = c ∧ x = e) | _ => false) ≤ s.net.log.countP (dealtB c e) := by
    refine List.countP_mono_left fun x _ hx => ?_
    cases x <;> simp_all [dealtB]
  have h4 : sent c e s.sess ≤ failed c e s.sess := by
    have hs := C135_sessions t ls s hr
    revert hs
    simp only [sent, failed]
    generalize s.sess = l
    intro hs
    induction l with
    | nil => exact Nat.le_refl _
    | cons y l ih =>
      have := ih fun z hz => hs z (List.mem_cons_of_mem _ hz)
      simp only [List.map_cons, List.sum_cons]
      have h5 := ((C43_one_report_per_failure_partial o y.2 (hs y (List.mem_cons_self ..))).1).count_eq e
      simp only [List.count_append] at h5
      split <;> omega
  omega

/-! ## C136 -/

/-- The manager and the sessions agree. -/
structure JointAgree (s : Joint.State) : Prop where
  going : s.net.cm.stopped = false
  notes : CM.Event.shutdown ∉ s.net.notes
  sinv : CM.SInv s.net.cm
  length : s.sess.length = s.net.cm.started.length
  owner : ∀ k c st, s.sess[k]? = some (c, st) → s.net.cm.started[k]? = some c.peer ∧ (st.cancelled = true ↔ k ∈ s.net.cm.cancelled)
  tracked : ∀ p x, s.net.cm.peers.get p = some x → x.conn.peer = p ∧ ∃ st, s.sess[x.session]? = some (x.conn, st)

private theorem notes_step (s n : Enforce.State) (l : Enforce.Label) (h : Enforce.step d eo s l = some n)
    (hn : CM.Event.shutdown ∉ s.notes) : CM.Event.shutdown ∉ n.notes := by
  cases Enforce.tr_of_step s n l h with
  | establish => simpa using hn
  | note i e hi he => exact fun hm => hn (List.mem_of_mem_eraseIdx hm)
  | close i q hi => simpa using hn
  | hangUp => simpa using hn
  | _ => exact hn

private theorem cm_step (s n : Enforce.State) (l : Enforce.Label) (h : Enforce.step d eo s l = some n) (hl : ∀ i, l ≠ .note i) :
    n.cm = s.cm := by
  cases Enforce.tr_of_step s n l h with
  | note i e hi he => exact absurd rfl (hl i)
  | _ => rfl

/-- The steps of the rest of the node, with what they do to the sessions. -/
theorem joint_net_follow (s s' : Joint.State) (l : Enforce.Label) (h : Joint.step d eo o s (.net l) = some s') :
    Enforce.step d eo s.net l = some s'.net ∧ ((s'.net.cm = s.net.cm ∧ s'.sess = s.sess) ∨
      ∃ e ∈ s.net.notes, s'.net.cm = CM.step s.net.cm e ∧ s'.sess = Joint.follow s.net.cm s'.net.cm e s.sess) := by
  simp only [Joint.step] at h
  split at h
  · cases h
  split at h
  · cases h
  split at h
  · cases h
  rename_i n hn
  split at h
  · rename_i i
    split at h
    · rename_i e he
      cases h
      refine ⟨hn, Or.inr ⟨e, List.mem_of_getElem? he, ?_, rfl⟩⟩
      cases Enforce.tr_of_step _ _ _ hn with
      | note i e' hi' he' => rw [he] at hi'; cases hi'; rfl
    · rename_i he
      cases Enforce.tr_of_step _ _ _ hn with
      | note i e' hi' he' => rw [he] at hi'; cases hi'
  · rename_i hne
    cases h
    exact ⟨hn, Or.inl ⟨cm_step _ _ _ hn fun i hi => hne i hi, rfl⟩⟩

/-- They do in all executions. -/
theorem joint_agree (t : Time) (ls : List Joint.Label) (s : Joint.State) (hr : Joint.run d eo o (Joint.init t) ls = some s) :
    JointAgree s := by
  refine Joint.run_ind (P := fun _ s => JointAgree s) t ?_ ?_ ls s hr
  · constructor <;> simp [Joint.init, Enforce.init, CM.init, CM.SInv]
  intro ls s l s' ih hs
  have hset : ∀ (k : Nat) (c : Conn) (st st' : Session.State) (n : Enforce.State), s.sess[k]? = some (c, st) → n.cm = s.net.cm →
      CM.Event.shutdown ∉ n.notes → st'.cancelled = st.cancelled → JointAgree { net := n, sess := s.sess.set k (c, st') } := by
    intro k c st st' n hk hn hnn hc
    refine ⟨by rw [hn]; exact ih.going, hnn, by rw [hn]; exact ih.sinv, by simp [hn, ih.length], ?_, ?_⟩
    · intro j c' st'' hj
      simp only [hn]
      rw [List.getElem?_set] at hj
      split at hj
      · rename_i hjk
        split at hj
        · cases hj
          subst hjk
          rw [hc]; exact ih.owner _ _ _ hk
        · cases hj
      · exact ih.owner j c' st'' hj
    · intro p x hx
      simp only [hn] at hx
      obtain ⟨h1, st1, h2⟩ := ih.tracked p x hx
      refine ⟨h1, ?_⟩
      simp only
      rw [List.getElem?_set]
      split
      · rename_i hjk
        subst hjk
        rw [h2] at hk; cases hk
        rw [if_pos (List.getElem?_eq_some_iff.1 h2).1]
        exact ⟨_, rfl⟩
      · exact ⟨_, h2⟩
  cases l with
  | net l =>
    obtain ⟨hn, hcase⟩ := joint_net_follow s s' l hs
    have hnotes := notes_step _ _ _ hn ih.notes
    rcases hcase with ⟨h1, h2⟩ | ⟨e, he, h1, h2⟩
    · exact ⟨by rw [h1]; exact ih.going, hnotes, by rw [h1]; exact ih.sinv, by rw [h1, h2]; exact ih.length,
        by rw [h1, h2]; exact ih.owner, by rw [h1, h2]; exact ih.tracked⟩
    have hsinv := CM.sinv_step s.net.cm e ih.sinv
    cases e with
    | shutdown => exact absurd he ih.notes
    | connected c =>
      have h3 : s'.net.cm = CM.handleConnected s.net.cm c := by rw [h1]; simp [CM.step, ih.going]
      by_cases hc : s.net.cm.peers.has c.peer = true
      · have h4 : s'.net.cm = s.net.cm := by rw [h3]; simp [CM.handleConnected, hc]
        have h5 : s'.sess = s.sess := by rw [h2, h4]; simp [Joint.follow]
        exact ⟨by rw [h4]; exact ih.going, hnotes, by rw [h4]; exact ih.sinv, by rw [h4, h5]; exact ih.length,
          by rw [h4, h5]; exact ih.owner, by rw [h4, h5]; exact ih.tracked⟩
      · have h4 : s'.net.cm = { s.net.cm with
            peers := s.net.cm.peers.set c.peer { conn := c, session := s.net.cm.started.length }
            started := s.net.cm.started ++ [c.peer] } := by rw [h3]; simp [CM.handleConnected, hc]
        have h5 : s'.sess = s.sess ++ [(c, Session.init)] := by rw [h2, h4]; simp [Joint.follow]
        refine ⟨by rw [h4]; exact ih.going, hnotes, by rw [h1]; exact hsinv, by rw [h4, h5]; simp [ih.length], ?_, ?_⟩
        · intro k c' st hk
          rw [h5, List.getElem?_append] at hk
          rw [h4]
          split at hk
          · rename_i hlt
            obtain ⟨g1, g2⟩ := ih.owner k c' st hk
            refine ⟨?_, g2⟩
            simp only
            rw [List.getElem?_append_left (by rw [← ih.length]; exact hlt)]
            exact g1
          · rename_i hge
            have hk0 : k = s.sess.length := by
              have := (List.getElem?_eq_some_iff.1 hk).1
              simp at this
              omega
            subst hk0
            simp at hk
            obtain ⟨rfl, rfl⟩ := hk
            refine ⟨by simp [ih.length], ?_⟩
            simp only [Session.init, Bool.false_eq_true, false_iff]
            intro hm
            have := ih.sinv.2.2 _ hm
            rw [ih.length] at this
            omega
        · intro p x hx
          rw [h4] at hx
          simp only at hx
          rw [h5]
          rw [GoMap.get_set] at hx
          split at hx
          · cases hx
            rename_i hp
            refine ⟨by simpa using Eq.symm hp, Session.init, ?_⟩
            simp [← ih.length]
          · obtain ⟨g1, st, g2⟩ := ih.tracked p x hx
            exact ⟨g1, st, by rw [List.getElem?_append_left (List.getElem?_eq_some_iff.1 g2).1]; exact g2⟩
    | disconnected c =>
      have h3 : s'.net.cm = CM.handleDisconnected s.net.cm c := by rw [h1]; simp [CM.step, ih.going]
      cases hg : s.net.cm.peers.get c.peer with
      | none =>
        have h4 : s'.net.cm = s.net.cm := by rw [h3]; simp [CM.handleDisconnected, hg]
        have h5 : s'.sess = s.sess := by rw [h2]; simp [Joint.follow, hg]
        exact ⟨by rw [h4]; exact ih.going, hnotes, by rw [h4]; exact ih.sinv, by rw [h4, h5]; exact ih.length,
          by rw [h4, h5]; exact ih.owner, by rw [h4, h5]; exact ih.tracked⟩
      | some y =>
        have h4 : s'.net.cm = { s.net.cm with peers := s.net.cm.peers.del c.peer, cancelled := y.session :: s.net.cm.cancelled } := by
          rw [h3]; simp [CM.handleDisconnected, hg]
        have h5 : s'.sess = s.sess.modify y.session Joint.cancelOf := by
          rw [h2]; simp only [Joint.follow, hg, ih.going]; rfl
        refine ⟨by rw [h4]; exact ih.going, hnotes, by rw [h1]; exact hsinv, by rw [h4, h5]; simp [ih.length], ?_, ?_⟩
        · intro k c' st hk
          rw [h5, List.getElem?_modify] at hk
          simp only [Option.map_eq_map, Option.map_eq_some_iff] at hk
          obtain ⟨⟨c0, st0⟩, hz, hk⟩ := hk
          obtain ⟨g1, g2⟩ := ih.owner k c0 st0 hz
          rw [h4]
          split at hk
          · rename_i hkk
            cases hk
            exact ⟨g1, by simp [hkk]⟩
          · rename_i hkk
            cases hk
            refine ⟨g1, ?_⟩
            rw [g2]
            simp only [List.mem_cons]
            exact ⟨Or.inr, fun h => h.resolve_left fun h => hkk h.symm⟩
        · intro p x hx
          rw [h4] at hx
          simp only at hx
          rw [GoMap.get_del] at hx
          split at hx
          · cases hx
          obtain ⟨g1, st, g2⟩ := ih.tracked p x hx
          refine ⟨g1, ?_⟩
          rw [h5, List.getElem?_modify, g2]
          simp only [Option.map_eq_map, Option.map_some]
          split
          · exact ⟨_, rfl⟩
          · exact ⟨_, rfl⟩
  | gossip c e =>
    cases Joint.jtr_of_step s s' _ hs with
    | gossip c' e' n h =>
      have h1 := cm_step _ _ _ h (by simp)
      have h2 := notes_step _ _ _ h ih.notes
      exact ⟨by simp only [h1]; exact ih.going, h2, by simp only [h1]; exact ih.sinv, by simp only [h1]; exact ih.length,
        by simp only [h1]; exact ih.owner, by simp only [h1]; exact ih.tracked⟩
  | session p k l =>
    cases Joint.jtr_of_step s s' _ hs with
    | quiet k l c' st st' hl hk h ht => exact hset k c' st st' s.net hk rfl ih.notes (joint_told_log st st' l h hl).2
    | tells k l c' st st' e' n hl hk h ht hn =>
      exact hset k c' st st' n hk (cm_step _ _ _ hn (by simp)) (notes_step _ _ _ hn ih.notes) (joint_told_log st st' l h hl).2

private theorem one_of {α : Type} (f : α → Bool) (l : List α) (k : Nat) (x : α) (hk : l[k]? = some x) (hx : f x = true)
    (hu : ∀ j y, l[j]? = some y → f y = true → j = k) : l.countP f = 1 := by
  induction l generalizing k with
  | nil => simp at hk
  | cons z l ih =>
    cases k with
    | zero =>
      simp only [List.getElem?_cons_zero, Option.some.injEq] at hk
      subst hk
      rw [List.countP_cons, if_pos hx, List.countP_eq_zero.2]
      intro y hy hf
      obtain ⟨j, hj⟩ := List.mem_iff_getElem?.1 hy
      have := hu (j + 1) y (by simpa using hj) hf
      omega
    | succ k =>
      have hz : f z ≠ true := fun h => by have := hu 0 z rfl h; omega
      rw [List.countP_cons, if_neg hz]
      refine ih k (by simpa using hk) fun j y hj hf => ?_
      have := hu (j + 1) y (by simpa using hj) hf
      omega

/-- C136. With a peer the manager tracks there is exactly one session that has not been told to end, with any other peer none. -/
theorem C136_one (t : Time) (ls : List Joint.Label) (s : Joint.State) (hr : Joint.run d eo o (Joint.init t) ls = some s) (p : Bytes) :
    (running p s.sess).length = if CM.isConnected s.net.cm p then 1 else 0 := by
  have ha := joint_agree t ls s hr
  have hmem : ∀ k c st, s.sess[k]? = some (c, st) → c.peer = p → st.cancelled = false →
      ∃ x, s.net.cm.peers.get p = some x ∧ x.session = k := by
    intro k c st hk hc hst
    obtain ⟨h1, h2⟩ := ha.owner k c st hk
    exact ha.sinv.2.1 k p (hc ▸ h1) fun hm => by rw [h2.2 hm] at hst; cases hst
  rw [CM.isConnected, GoMap.has_eq]
  cases hg : s.net.cm.peers.get p with
  | none =>
    simp only [Option.isSome_none, Bool.false_eq_true, if_false, running, List.length_eq_zero_iff, List.filter_eq_nil_iff]
    rintro ⟨c, st⟩ hy hc
    obtain ⟨k, hk⟩ := List.mem_iff_getElem?.1 hy
    simp only [Bool.and_eq_true, decide_eq_true_eq, Bool.not_eq_true'] at hc
    obtain ⟨x, hx, _⟩ := hmem k c st hk hc.1 hc.2
    rw [hg] at hx; cases hx
  | some x =>
    obtain ⟨h1, st, h2⟩ := ha.tracked p x hg
    have h3 : st.cancelled = false := by
      have := (ha.owner _ _ _ h2).2
      cases hst : st.cancelled with
      | false => rfl
      | true => exact absurd (this.1 hst) (ha.sinv.1 p x hg).2
    simp only [Option.isSome_some, if_true, running]
    rw [← List.countP_eq_length_filter]
    refine one_of _ s.sess x.session (x.conn, st) h2 (by simp [h1, h3]) ?_
    rintro j ⟨c', st'⟩ hj hc
    simp only [Bool.and_eq_true, decide_eq_true_eq, Bool.not_eq_true'] at hc
    obtain ⟨y, hy, hyj⟩ := hmem j c' st' hj hc.1 hc.2
    rw [hg] at hy; cases hy; exact hyj.symm

/-- C136. A session that has not been told to end is over the connection by which the manager tracks its peer; this was let in, and when all
notifications have been handled it is still there. -/
theorem C136_connected (t : Time) (ls : List Joint.Label) (s : Joint.State) (hr : Joint.run d eo o (Joint.init t) ls = some s) (c : Conn)
    (st : Session.State) (hm : (c, st) ∈ s.sess) (hst : st.cancelled = false) :
    CM.getPeerAddress s.net.cm c.peer = some c.addr ∧ Admitted s.net.log c ∧ (s.net.notes = [] → c ∈ s.net.live) := by
  have ha := joint_agree t ls s hr
  have hreach := Joint.net_reach t ls s hr
  obtain ⟨k, hk⟩ := List.mem_iff_getElem?.1 hm
  obtain ⟨h1, h2⟩ := ha.owner k c st hk
  obtain ⟨x, hx, hxk⟩ := ha.sinv.2.1 k c.peer h1 fun hm => by rw [h2.2 hm] at hst; cases hst
  obtain ⟨h3, st', h4⟩ := ha.tracked _ x hx
  rw [hxk, hk] at h4
  cases h4
  exact ⟨by simp [CM.getPeerAddress, hx], ((C102_all_let_in s.net hreach).2.1 _ x hx).2, fun hn => (C103_no_ghosts s.net hreach hn _ x hx).1⟩

/-- C136. A peer that has made one connection, and still has it, has a session over it that goes on, when all notifications have been
handled. -/
theorem C136_served (t : Time) (ls : List Joint.Label) (s : Joint.State) (hr : Joint.run d eo o (Joint.init t) ls = some s)
    (hn : s.net.notes = []) (c : Conn) (hc : c ∈ s.net.live) (hone : ∀ c', Admitted s.net.log c' → c'.peer = c.peer → c' = c) :
    ∃ st, (c, st) ∈ s.sess ∧ st.cancelled = false := by
  have ha := joint_agree t ls s hr
  obtain ⟨x, hx, rfl⟩ := C103_tracked s.net (Joint.net_reach t ls s hr) hn c hc hone
  obtain ⟨_, st, h2⟩ := ha.tracked _ x hx
  refine ⟨st, List.mem_of_getElem? h2, ?_⟩
  have := (ha.owner _ _ _ h2).2
  cases hst : st.cancelled with
  | false => rfl
  | true => exact absurd (this.1 hst) (ha.sinv.1 _ x hx).2

/-- C136. Sessions keep their place and their connection, and one that was told to end stays so. -/
theorem C136_never_revived (s s' : Joint.State) (l : Joint.Label) (hs : Joint.step d eo o s l = some s') (k : Nat) (c : Conn)
    (st : Session.State) (hk : s.sess[k]? = some (c, st)) :
    ∃ st', s'.sess[k]? = some (c, st') ∧ (st.cancelled = true → st'.cancelled = true) := by
  have hset : ∀ (j : Nat) (c' : Conn) (st0 st' : Session.State), s.sess[j]? = some (c', st0) → st'.cancelled = st0.cancelled →
      ∃ st'', (s.sess.set j (c', st'))[k]? = some (c, st'') ∧ (st.cancelled = true → st''.cancelled = true) := by
    intro j c' st0 st' hj hc
    rw [List.getElem?_set]
    split
    · rename_i hjk
      subst hjk
      rw [hk] at hj; cases hj
      rw [if_pos (List.getElem?_eq_some_iff.1 hk).1]
      exact ⟨_, rfl, fun h => hc ▸ h⟩
    · exact ⟨st, hk, id⟩
  cases Joint.jtr_of_step s s' l hs with
  | net l n hl h sess hsess =>
    rcases hsess with rfl | ⟨c', rfl⟩ | ⟨j, rfl⟩
    · exact ⟨st, hk, id⟩
    · exact ⟨st, by simp only; rw [List.getElem?_append_left (List.getElem?_eq_some_iff.1 hk).1]; exact hk, id⟩
    · simp only
      rw [List.getElem?_modify, hk]
      simp only [Option.map_eq_map, Option.map_some]
      split
      · exact ⟨_, rfl, fun _ => rfl⟩
      · exact ⟨_, rfl, id⟩
  | gossip c' e' n h => exact ⟨st, hk, id⟩
  | quiet j l c' st0 st' hl hj h ht => exact hset j c' st0 st' hj (joint_told_log st0 st' l h hl).2
  | tells j l c' st0 st' e' n hl hj h ht hn => exact hset j c' st0 st' hj (joint_told_log st0 st' l h hl).2

/-- A session is opened only for a connection whose notification is being dealt with. -/
private theorem opened_for (s s' : Joint.State) (l : Enforce.Label) (hs : Joint.step d eo o s (.net l) = some s') (c : Conn)
    (hc : s'.sess = s.sess ++ [(c, Session.init)]) : CM.Event.connected c ∈ s.net.notes := by
  have hne : ∀ x : List (Conn × Session.State), x.length = s.sess.length → x ≠ s.sess ++ [(c, Session.init)] := by
    rintro x hx rfl
    simp at hx
  simp only [Joint.step] at hs
  split at hs
  · cases hs
  split at hs
  · cases hs
  split at hs
  · cases hs
  split at hs
  · rename_i i
    split at hs
    · rename_i e he
      cases hs
      cases e with
      | connected c' =>
        simp only [Joint.follow] at hc
        split at hc
        · exact absurd hc (hne _ rfl)
        · obtain ⟨rfl, _⟩ := Prod.mk.inj (List.cons.inj (List.append_cancel_left hc)).1
          exact List.mem_of_getElem? he
      | disconnected c' =>
        refine absurd hc (hne _ ?_)
        simp only [Joint.follow]
        split
        · split
          · rfl
          · simp
        · rfl
      | shutdown => exact absurd hc (hne _ rfl)
    · cases hs; exact absurd hc (hne _ rfl)
  · cases hs; exact absurd hc (hne _ rfl)

/-- Every session, also one that was told to end, is over a connection that was established. -/
private theorem sessions_met (t : Time) (ls : List Joint.Label) (s : Joint.State) (hr : Joint.run d eo o (Joint.init t) ls = some s) :
    ∀ y ∈ s.sess, Admitted s.net.log y.1 := by
  have key : Joint.run d eo o (Joint.init t) ls = some s ∧ ∀ y ∈ s.sess, Admitted s.net.log y.1 := by
    refine Joint.run_ind (P := fun ls s => Joint.run d eo o (Joint.init t) ls = some s ∧ ∀ y ∈ s.sess, Admitted s.net.log y.1) t
      ⟨rfl, by simp [Joint.init]⟩ ?_ ls s hr
    rintro ls s l s' ⟨hrun, ih⟩ hs
    refine ⟨by rw [Joint.run_snoc, hrun]; exact hs, ?_⟩
    have grow : ∀ (l : Enforce.Label) (n : Enforce.State), Enforce.step d eo s.net l = some n → ∀ c, Admitted s.net.log c → Admitted n.log c := by
      intro l n h c hc
      obtain ⟨_, _, new, hl⟩ := Enforce.frame_step s.net n l h
      exact hc.imp fun _ ht => hl ▸ List.mem_append_right _ ht
    have hset : ∀ (k : Nat) (c : Conn) (st st' : Session.State), s.sess[k]? = some (c, st) →
        ∀ y ∈ s.sess.set k (c, st'), Admitted s.net.log y.1 := by
      intro k c st st' hk y hy
      rcases List.mem_or_eq_of_mem_set hy with hy | rfl
      · exact ih y hy
      · exact ih (c, st) (List.mem_of_getElem? hk)
    cases Joint.jtr_of_step s s' l hs with
    | net l n hl h sess hsess =>
      rcases hsess with rfl | ⟨c, rfl⟩ | ⟨k, rfl⟩
      · exact fun y hy => grow l n h _ (ih y hy)
      · intro y hy
        rcases List.mem_append.1 hy with hy | hy
        · exact grow l n h _ (ih y hy)
        · simp only [List.mem_singleton] at hy
          subst hy
          exact grow l n h _ ((C102_announced s.net (Joint.net_reach t ls s hrun)).1 c (opened_for s _ l hs c rfl))
      · intro y hy
        obtain ⟨j, hj⟩ := List.mem_iff_getElem?.1 hy
        rw [List.getElem?_modify] at hj
        cases hg : s.sess[j]? with
        | none => rw [hg] at hj; simp at hj
        | some z =>
          rw [hg] at hj
          simp only [Option.map_eq_map, Option.map_some, Option.some.injEq] at hj
          have hz := grow l n h _ (ih z (List.mem_of_getElem? hg))
          split at hj <;> (subst hj; exact hz)
    | gossip c e n h => exact fun y hy => grow _ n h _ (ih y hy)
    | quiet k l c st st' hl hk h ht => exact hset k c st st' hk
    | tells k l c st st' e n hl hk h ht hn => exact fun y hy => grow _ n hn _ (hset k c st st' hk y hy)
  exact key.2

/-- C136. Sessions do not stand in each other's way: whatever a session can do as far as it is concerned, it can do in the node (other
than being told to end, which is up to the connection manager), whatever the other sessions, the manager and the error handler are
doing, as long as none has crashed; no other session changes by it, and neither do the connections. -/
theorem C136_independent (t : Time) (ls : List Joint.Label) (s : Joint.State) (hr : Joint.run d eo o (Joint.init t) ls = some s)
    (k : Nat) (c : Conn) (st st' : Session.State) (hk : s.sess[k]? = some (c, st)) (l : Session.Label) (hl : l ≠ .cancel)
    (hst : Session.step o st l = some st') (hok : ∀ y ∈ s.sess, y.2.phase ≠ .crashed) :
    ∃ s', Joint.step d eo o s (.session c.peer k l) = some s' ∧ s'.sess = s.sess.set k (c, st') ∧ s'.net.live = s.net.live ∧
      s'.net.notes = s.net.notes := by
  have hd : Joint.dead s = false := by
    rw [Bool.eq_false_iff]
    intro h
    simp only [Joint.dead, List.any_eq_true, decide_eq_true_eq] at h
    obtain ⟨y, hy, hc⟩ := h
    exact hok y hy hc
  have hc : Joint.isCancel l = false := by cases l <;> first | rfl | exact absurd rfl hl
  have hm : Enforce.met s.net.log c = true := Enforce.met_iff.2 (sessions_met t ls s hr _ (List.mem_of_getElem? hk))
  simp only [Joint.step, hd, hc, hk, if_true, hst, Bool.false_eq_true, if_false]
  cases Joint.told st l with
  | none => exact ⟨_, rfl, rfl, rfl, rfl⟩
  | some e =>
    simp only [Enforce.step, hm, if_true]
    exact ⟨_, rfl, rfl, rfl, rfl⟩

/-! ### An example -/

private def jpeer : Bytes := [9]
private def jhome : MAddr := ⟨[9, 9], []⟩
private def jconn (n : Nat) : Conn := ⟨jpeer, jhome, n⟩
/-- A handshake in which our own node does not answer. -/
private def jfail : HsEnv :=
  { version := .ok ⟨1, 0, 0⟩, localChainID := .error (.sentinel .localRPC), peerChainID := .ok [7], peerHead := .ok ([1], 1)
    ancestor := fun _ _ _ => .ok [1] }

private def jrun : List Joint.Label :=
  [.net (.knock jpeer jhome), .net (.secure 0), .net (.establish 0), .net (.note 0), .session jpeer 0 (.handshake jfail), .session jpeer 0 (.deliver 0),
    .gossip (jconn 0) (.sentinel .deserialization), .net (.handle 0), .net (.hangUp (jconn 0)), .net (.note 0),
    .net (.knock jpeer jhome), .net (.secure 0), .net (.establish 0), .net (.note 0)]

/-- A peer comes, an exchange fails and is charged, gossip finds an error, the peer goes and comes again: two sessions, one of them told to
end. -/
example : ∃ s, Joint.run (fun _ s => s) .default .default (Joint.init 0) jrun = some s ∧ s.net.notes = [] ∧
    s.sess.map (fun y => (y.1, y.2.cancelled)) = [(jconn 0, true), (jconn 1, false)] ∧ s.net.live = [jconn 1] ∧
    sent (jconn 0) (.sentinel .localRPC) s.sess = 1 ∧ failed (jconn 0) (.sentinel .localRPC) s.sess = 1 ∧
    gossiped (jconn 0) (.sentinel .deserialization) jrun = 1 :=
  ⟨_, rfl, by decide +kernel, by decide +kernel, by decide +kernel, by decide +kernel, by decide +kernel, by decide +kernel⟩

/-- A session that can take a step, for `C136_independent`. -/
example : ∃ s, Joint.run (fun _ s => s) .default .default (Joint.init 0) (jrun.take 4) = some s ∧
    s.sess = [(jconn 0, Session.init)] ∧ (Session.step .default Session.init (.handshake jfail)).isSome = true ∧
    Session.init.phase ≠ .crashed :=
  ⟨_, rfl, by decide +kernel, by decide +kernel, by decide +kernel⟩

end KP2P

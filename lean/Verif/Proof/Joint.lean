import Verif.Spec.Joint
import Verif.Props.Enforce
import Verif.Props.Honest
/-!
# What a peer is charged stems from what its sessions and gossip report
-/

namespace KP2P
namespace Joint
open KP2P.Enforce KP2P.PeerConn KP2P.Spec KP2P.Spec.Joint
open KP2P.ErrHandler (Event)

variable {d : Spec.Decay} {eo : ErrOpts} {o : Opts}

/-! ### Enforcement alone -/

/-- What was entered against a host. -/
def paid (w : Err → Nat) (ip : Bytes) (hist : List (Int × Event)) : Nat :=
  (hist.map fun
    | (_, .perr _ (some a) e) => if a.ip = ip then w e else 0
    | _ => 0).sum

theorem paid_append (w : Err → Nat) (ip : Bytes) (a b : List (Int × Event)) : paid w ip (a ++ b) = paid w ip a + paid w ip b := by
  simp [paid]

/-- What is waiting to be dealt with. -/
def owed (w : Err → Nat) (p : Bytes) (errs : List (Conn × Err)) : Nat :=
  (errs.map fun x => if x.1.peer = p then w x.2 else 0).sum

theorem owed_erase (w : Err → Nat) (p : Bytes) (errs : List (Conn × Err)) (i : Nat) (c : Conn) (e : Err)
    (h : errs[i]? = some (c, e)) : owed w p errs = (if c.peer = p then w e else 0) + owed w p (errs.eraseIdx i) := by
  induction errs generalizing i with
  | nil => simp at h
  | cons x xs ih =>
    cases i with
    | zero =>
      simp only [List.getElem?_cons_zero, Option.some.injEq] at h
      subst h
      simp [owed]
    | succ i =>
      simp only [List.getElem?_cons_succ] at h
      have := ih i h
      simp only [owed, List.eraseIdx_cons_succ, List.map_cons, List.sum_cons] at this ⊢
      omega

theorem weight_append (w : Err → Nat) (p : Bytes) (a b : List Obs) :
    reportedWeight w p (a ++ b) = reportedWeight w p a + reportedWeight w p b := by
  simp [reportedWeight]

theorem weight_zero (w : Err → Nat) (p : Bytes) (l : List Obs) (h : ∀ c e, Obs.reported c e ∈ l → c.peer ≠ p) :
    reportedWeight w p l = 0 := by
  induction l with
  | nil => rfl
  | cons x l ih =>
    have ih := ih fun c e hc => h c e (List.mem_cons_of_mem _ hc)
    simp only [reportedWeight, List.map_cons, List.sum_cons] at ih ⊢
    rw [ih]
    cases x with
    | reported c e => simp [h c e (List.mem_cons_self ..)]
    | _ => rfl

/-- Only `p` was let in from this host. -/
def Alone (log : List Obs) (p ip : Bytes) : Prop := ∀ c, Admitted log c → c.addr.ip = ip → c.peer = p

theorem paid_le (w : Err → Nat) (p ip : Bytes) (s : Enforce.State) (hr : Enforce.Reachable d eo s) (ha : Alone s.log p ip) :
    paid w ip s.hist + owed w p s.errs ≤ reportedWeight w p s.log := by
  obtain ⟨t, ls, hr⟩ := hr
  have key := Enforce.run_ind (d := d) (o := eo)
    (P := fun s => Enforce.Reachable d eo s ∧ (Alone s.log p ip → paid w ip s.hist + owed w p s.errs ≤ reportedWeight w p s.log))
    ?_ ls (Enforce.init t) s ⟨⟨t, [], rfl⟩, fun _ => Nat.le_refl _⟩ hr
  · exact key.2 ha
  rintro s l s' ⟨hreach, ih⟩ hs
  refine ⟨Enforce.reachable_run hreach [l] (by simp [Enforce.run, hs]), fun ha => ?_⟩
  have ha0 : Alone s.log p ip := by
    obtain ⟨_, _, new, hl⟩ := Enforce.frame_step s s' l hs
    intro c ⟨t, hc⟩
    exact ha c ⟨t, by rw [hl]; exact List.mem_append_right _ hc⟩
  have ih := ih ha0
  have quiet : ∀ (new : List Obs) (evs : List (Int × Event)), (∀ c e, Obs.reported c e ∈ new → c.peer ≠ p) →
      (∀ x ∈ evs, ∀ q a e, x.2 ≠ .perr q (some a) e) →
      paid w ip (s.hist ++ evs) + owed w p s.errs ≤ reportedWeight w p (new ++ s.log) := by
    intro new evs h1 h2
    rw [weight_append, weight_zero w p new h1, paid_append]
    have : paid w ip evs = 0 := by
      induction evs with
      | nil => rfl
      | cons x evs ih =>
        have ih := ih fun y hy => h2 y (List.mem_cons_of_mem _ hy)
        simp only [paid, List.map_cons, List.sum_cons] at ih ⊢
        rw [ih]
        obtain ⟨t, x⟩ := x
        cases x with
        | perr q a e =>
          cases a with
          | none => rfl
          | some a => exact absurd rfl (h2 _ (List.mem_cons_self ..) q a e)
        | _ => rfl
    omega
  cases Enforce.tr_of_step s s' l hs with
  | knockIn p' a h => exact quiet [] [_] (by simp) (by simp)
  | knockOut p' a h => exact quiet [_] [_] (by simp) (by simp)
  | secureIn i c hi h => exact quiet [_] [_] (by simp) (by simp)
  | establish i c hi => simpa using quiet [_] [] (by simp) (by simp)
  | secureOut i c hi h => exact quiet [_] [_] (by simp) (by simp)
  | note i e hi he => exact ih
  | report c e hc =>
    simp only [owed, reportedWeight, List.map_append, List.sum_append, List.map_cons, List.map_nil, List.sum_cons, List.sum_nil] at ih ⊢
    omega
  | charge i c e a hi hadr q hq =>
    have h1 := owed_erase w p s.errs i c e hi
    simp only [CM.getPeerAddress, Option.map_eq_some_iff] at hadr
    obtain ⟨x, hx, hxa⟩ := hadr
    obtain ⟨h2, h3⟩ := (C102_all_let_in s hreach).2.1 c.peer x hx
    have h4 : a.ip = ip → c.peer = p := fun h => h2 ▸ ha0 x.conn h3 (by rw [hxa]; exact h)
    simp only [paid_append]
    have h5 : paid w ip [(s.now, Event.perr c.peer (some a) e)] ≤ if c.peer = p then w e else 0 := by
      simp only [paid, List.map_cons, List.map_nil, List.sum_cons, List.sum_nil, Nat.add_zero]
      split
      · rw [if_pos (h4 ‹_›)]
      · exact Nat.zero_le _
    have h6 : reportedWeight w p (Obs.charged c e a (scoreOf (s.eh.handle d eo s.now (.perr c.peer (some a) e)).1 a) s.now :: s.log)
        = reportedWeight w p s.log := by simp [reportedWeight]
    rw [h6]
    omega
  | ignore i c e hi hadr =>
    have h1 := owed_erase w p s.errs i c e hi
    simp only [paid_append]
    have h5 : paid w ip [(s.now, Event.perr c.peer none e)] = 0 := rfl
    have h6 : reportedWeight w p (Obs.ignored c e :: s.log) = reportedWeight w p s.log := by simp [reportedWeight]
    rw [h6, h5]
    omega
  | close i q hi =>
    have := quiet ((s.live.filter fun c => c.peer == q).map Obs.closed).reverse [] (by simp) (by simp)
    simpa using this
  | hangUp c hc =>
    have := quiet [.gone c] [] (by simp) (by simp)
    simpa using this
  | query a => exact quiet [] [_] (by simp) (by simp)
  | tick n => exact ih

theorem totalCharged_paid (ip : Bytes) (hist : List (Int × Event)) :
    totalCharged (entriesFor eo ip hist) = paid (fun e => (getScoreForError eo e).toNat) ip hist := by
  induction hist with
  | nil => rfl
  | cons x hist ih =>
    obtain ⟨t, x⟩ := x
    have e0 : entriesFor eo ip ((t, x) :: hist) = (((x.entryFor eo ip).map fun y => (t, y)).toList) ++ entriesFor eo ip hist := by
      simp only [entriesFor, List.filterMap_cons]
      cases x.entryFor eo ip <;> rfl
    rw [e0, totalCharged_append, ih]
    simp only [paid, List.map_cons, List.sum_cons]
    congr 1
    cases x with
    | perr q a e =>
      cases a with
      | none => rfl
      | some a =>
        by_cases h : a.ip = ip <;> simp [Event.entryFor, h, totalCharged]
    | canConnect a => by_cases h : a.ip = ip <;> simp [Event.entryFor, h, totalCharged]
    | getScore a => by_cases h : a.ip = ip <;> simp [Event.entryFor, h, totalCharged]

/-- No entry, no balance. -/
theorem balance_none (ip : Bytes) (hist : List (Int × Event)) (h : paid (fun _ => 1) ip hist = 0) :
    balance d (entriesFor eo ip hist) = none := by
  induction hist using List.reverseRecOn with
  | nil => rfl
  | append_singleton hist x ih =>
    rw [paid_append] at h
    have ih := ih (by omega)
    have hx : paid (fun _ => 1) ip [x] = 0 := by omega
    obtain ⟨t, x⟩ := x
    rw [entriesFor_append]
    have e0 : entriesFor eo ip [(t, x)] = ((x.entryFor eo ip).map fun y => (t, y)).toList := by
      simp only [entriesFor, List.filterMap_cons, List.filterMap_nil]
      cases x.entryFor eo ip <;> rfl
    rw [e0]
    cases x with
    | perr q a e =>
      cases a with
      | none => simpa [Event.entryFor] using ih
      | some a =>
        by_cases hip : a.ip = ip
        · simp [paid, hip] at hx
        · simpa [Event.entryFor, hip] using ih
    | canConnect a =>
      by_cases hip : a.ip = ip
      · simp [Event.entryFor, hip, balance_snoc, ih, Balance.post, Balance.at]
      · simpa [Event.entryFor, hip] using ih
    | getScore a =>
      by_cases hip : a.ip = ip
      · simp [Event.entryFor, hip, balance_snoc, ih, Balance.post, Balance.at]
      · simpa [Event.entryFor, hip] using ih

/-! ### The joint system -/

/-- The cancellation of a session. -/
def cancelOf (y : Conn × Session.State) : Conn × Session.State := (y.1, { y.2 with cancelled := true, log := .cancel :: y.2.log })

/-- The steps, case by case. -/
inductive JTr (d : Spec.Decay) (eo : ErrOpts) (o : Opts) (s : State) : Label → State → Prop where
  | net (l : Enforce.Label) (n : Enforce.State) (hl : isReport l = false) (h : Enforce.step d eo s.net l = some n)
      (sess : List (Conn × Session.State))
      (hs : sess = s.sess ∨ (∃ c, sess = s.sess ++ [(c, Session.init)]) ∨ ∃ k, sess = s.sess.modify k cancelOf) :
    JTr d eo o s (.net l) { net := n, sess := sess }
  | gossip (c : Conn) (e : Err) (n : Enforce.State) (h : Enforce.step d eo s.net (.report c e) = some n) :
    JTr d eo o s (.gossip c e) { s with net := n }
  | quiet (k : Nat) (l : Session.Label) (c : Conn) (st st' : Session.State) (hl : isCancel l = false)
      (hk : s.sess[k]? = some (c, st)) (h : Session.step o st l = some st') (ht : told st l = none) :
    JTr d eo o s (.session c.peer k l) { s with sess := s.sess.set k (c, st') }
  | tells (k : Nat) (l : Session.Label) (c : Conn) (st st' : Session.State) (e : Err) (n : Enforce.State) (hl : isCancel l = false)
      (hk : s.sess[k]? = some (c, st)) (h : Session.step o st l = some st') (ht : told st l = some e)
      (hn : Enforce.step d eo s.net (.report c e) = some n) :
    JTr d eo o s (.session c.peer k l) { net := n, sess := s.sess.set k (c, st') }

theorem jtr_of_step (s s' : State) (l : Label) (hs : step d eo o s l = some s') : JTr d eo o s l s' := by
  simp only [step] at hs
  split at hs
  · cases hs
  cases l with
  | net l =>
    simp only at hs
    split at hs
    · cases hs
    rename_i hrep
    have hrep : isReport l = false := by simpa using hrep
    split at hs
    · cases hs
    rename_i n hn
    split at hs
    · rename_i i
      split at hs
      · rename_i e he
        cases hs
        refine .net _ n hrep hn _ ?_
        simp only [follow]
        split
        · rename_i c
          split
          · exact Or.inl rfl
          · exact Or.inr (Or.inl ⟨c, rfl⟩)
        · split
          · split
            · exact Or.inl rfl
            · exact Or.inr (Or.inr ⟨_, rfl⟩)
          · exact Or.inl rfl
        · exact Or.inl rfl
      · cases hs; exact .net _ n hrep hn _ (Or.inl rfl)
    · cases hs; exact .net _ n hrep hn _ (Or.inl rfl)
  | gossip c e =>
    simp only at hs
    split at hs
    · rename_i n hn; cases hs; exact .gossip c e n hn
    · cases hs
  | session p k l =>
    simp only at hs
    split at hs
    · cases hs
    rename_i hc
    have hc : isCancel l = false := by simpa using hc
    split at hs
    · cases hs
    rename_i c st hk
    split at hs
    · rename_i hp
      subst hp
      split at hs
      · cases hs
      rename_i st' hst
      split at hs
      · rename_i ht; cases hs; exact .quiet k l c st st' hc hk hst ht
      · rename_i e ht
        split at hs
        · rename_i n hn; cases hs; exact .tells k l c st st' e n hc hk hst ht hn
        · cases hs
    · cases hs

theorem run_snoc (ls : List Label) (l : Label) (s : State) :
    run d eo o s (ls ++ [l]) = (run d eo o s ls).bind fun t => step d eo o t l := by
  induction ls generalizing s with
  | nil =>
    simp only [List.nil_append, run, Option.bind_some]
    cases step d eo o s l <;> rfl
  | cons x ls ih =>
    simp only [List.cons_append, run]
    cases step d eo o s x with
    | none => rfl
    | some t => exact ih t

/-- Induction along an execution, with the labels so far. -/
theorem run_ind {P : List Label → State → Prop} (t : Time) (h0 : P [] (init t))
    (hstep : ∀ ls s l s', P ls s → step d eo o s l = some s' → P (ls ++ [l]) s') :
    ∀ ls s, run d eo o (init t) ls = some s → P ls s := by
  intro ls
  induction ls using List.reverseRecOn with
  | nil => intro s h; cases h; exact h0
  | append_singleton ls l ih =>
    intro s h
    rw [run_snoc] at h
    cases hr : run d eo o (init t) ls with
    | none => rw [hr] at h; cases h
    | some a => rw [hr] at h; exact hstep ls a l s (ih a hr) h

theorem net_reach (t : Time) (ls : List Label) (s : State) (hr : run d eo o (init t) ls = some s) : Enforce.Reachable d eo s.net := by
  refine run_ind (P := fun _ s => Enforce.Reachable d eo s.net) t ⟨t, [], rfl⟩ ?_ ls s hr
  intro ls s l s' ih hs
  cases jtr_of_step s s' l hs with
  | net l n hl h => exact Enforce.reachable_run ih [l] (by simp [Enforce.run, h])
  | gossip c e n h => exact Enforce.reachable_run ih [.report c e] (by simp only [Enforce.run, h])
  | quiet => exact ih
  | tells k l c st st' e n hl hk h ht hn => exact Enforce.reachable_run ih [.report c e] (by simp only [Enforce.run, hn])

/-- The errors a session has found and not yet sent. -/
def pend (w : Err → Nat) (st : Session.State) : Nat :=
  (st.reporters.map w).sum + match st.phase with
    | .reporting e => w e
    | _ => 0

/-- Those of all sessions with peer `p`. -/
def pendAll (w : Err → Nat) (p : Bytes) (sess : List (Conn × Session.State)) : Nat :=
  (sess.map fun y => if y.1.peer = p then pend w y.2 else 0).sum

theorem pendAll_set (w : Err → Nat) (p : Bytes) (sess : List (Conn × Session.State)) (k : Nat) (c : Conn) (st st' : Session.State)
    (h : sess[k]? = some (c, st)) :
    pendAll w p (sess.set k (c, st')) + (if c.peer = p then pend w st else 0) =
      pendAll w p sess + if c.peer = p then pend w st' else 0 := by
  induction sess generalizing k with
  | nil => simp at h
  | cons x xs ih =>
    cases k with
    | zero =>
      simp only [List.getElem?_cons_zero, Option.some.injEq] at h
      subst h
      simp only [pendAll, List.set_cons_zero, List.map_cons, List.sum_cons]
      omega
    | succ k =>
      simp only [List.getElem?_cons_succ] at h
      have := ih k h
      simp only [pendAll, List.set_cons_succ, List.map_cons, List.sum_cons] at this ⊢
      omega

theorem pendAll_modify (w : Err → Nat) (p : Bytes) (sess : List (Conn × Session.State)) (k : Nat) :
    pendAll w p (sess.modify k cancelOf) = pendAll w p sess := by
  induction sess generalizing k with
  | nil => cases k <;> rfl
  | cons x xs ih =>
    cases k with
    | zero => simp [pendAll, cancelOf, pend]
    | succ k =>
      have := ih k
      simp only [pendAll, List.modify_succ_cons, List.map_cons, List.sum_cons] at this ⊢
      omega

theorem sum_eraseIdx (w : Err → Nat) (es : List Err) (i : Nat) (e : Err) (h : es[i]? = some e) :
    (es.map w).sum = w e + ((es.eraseIdx i).map w).sum := by
  induction es generalizing i with
  | nil => simp at h
  | cons x xs ih =>
    cases i with
    | zero =>
      simp only [List.getElem?_cons_zero, Option.some.injEq] at h
      subst h; simp
    | succ i =>
      have := ih i (by simpa using h)
      simp only [List.map_cons, List.sum_cons, List.eraseIdx_cons_succ] at this ⊢
      omega

theorem pend_step (w : Err → Nat) (st st' : Session.State) (l : Session.Label) (n : Nat) (hn : Costs w o l n)
    (hs : Session.step o st l = some st') : pend w st' + ((told st l).map w).getD 0 ≤ pend w st + n := by
  cases l with
  | handshake e =>
    simp only [Session.step] at hs
    split at hs
    · rename_i hp
      split at hs
      · cases hs
        simp [pend, hp, told]
      · rename_i err he
        cases hs
        have := hn err he
        simp only [pend, hp, told, List.map_append, List.sum_append, List.map_cons, List.map_nil, List.sum_cons, List.sum_nil, Option.map_none,
          Option.getD_none]
        omega
    · cases hs
  | retryTimer =>
    simp only [Session.step] at hs
    split at hs
    · rename_i hp; cases hs; simp [pend, hp, told]
    · cases hs
  | round e =>
    simp only [Session.step] at hs
    split at hs
    · rename_i hp
      split at hs
      · cases hs; simp [pend, hp, told]
      · rename_i err he
        cases hs
        have := hn st.synced err he
        simp only [pend, hp, told, Option.map_none, Option.getD_none]
        omega
      · cases hs; simp [pend, hp, told]
    · cases hs
  | report =>
    simp only [Session.step] at hs
    split at hs
    · rename_i e hp; cases hs; simp [pend, hp, told]
    · cases hs
  | sleepTimer =>
    simp only [Session.step] at hs
    split at hs
    · rename_i e hp; cases hs; simp [pend, hp, told]
    · cases hs
  | seeDone =>
    simp only [Session.step] at hs
    split at hs
    · split at hs
      · rename_i hp; cases hs; simp [pend, hp, told]
      · rename_i hp; cases hs; simp [pend, hp, told]
      · rename_i hp; cases hs; simp [pend, hp, told]; omega
      · cases hs
    · cases hs
  | deliver i =>
    simp only [Session.step] at hs
    split at hs
    · rename_i e hi
      cases hs
      have := sum_eraseIdx w st.reporters i e hi
      simp only [pend, told, hi, Option.map_some, Option.getD_some]
      omega
    · cases hs
  | giveUp i =>
    simp only [Session.step] at hs
    split at hs
    · split at hs
      · rename_i e hi
        cases hs
        have := sum_eraseIdx w st.reporters i e hi
        simp only [pend, told, Option.map_none, Option.getD_none]
        omega
      · cases hs
    · cases hs
  | cancel => cases hs; simp [pend, told]

theorem weight_net (w : Err → Nat) (p : Bytes) (s n : Enforce.State) (l : Enforce.Label) (hl : isReport l = false)
    (h : Enforce.step d eo s l = some n) : reportedWeight w p n.log = reportedWeight w p s.log := by
  cases Enforce.tr_of_step s n l h with
  | report => cases hl
  | close i q hi =>
    simp only [weight_append]
    rw [weight_zero w p _ (by simp), Nat.zero_add]
  | _ => simp [reportedWeight]

theorem weight_report (w : Err → Nat) (p : Bytes) (s n : Enforce.State) (c : Conn) (e : Err)
    (h : Enforce.step d eo s (.report c e) = some n) :
    reportedWeight w p n.log = (if c.peer = p then w e else 0) + reportedWeight w p s.log := by
  cases Enforce.tr_of_step s n _ h with
  | report _ _ hc => simp [reportedWeight]

theorem bill_snoc (w : Err → Nat) (cost : Session.Label → Nat) (p : Bytes) (ls : List Label) (l : Label) :
    bill w cost p (ls ++ [l]) = bill w cost p ls + bill w cost p [l] := by
  simp [bill]

/-- What is reported of a peer is at most what its exchanges cost. -/
theorem reported_le (w : Err → Nat) (cost : Session.Label → Nat) (p : Bytes) (t : Time) (ls : List Label) (s : State)
    (hr : run d eo o (init t) ls = some s) (hc : ∀ k l, Label.session p k l ∈ ls → Costs w o l (cost l)) :
    reportedWeight w p s.net.log + pendAll w p s.sess ≤ bill w cost p ls := by
  refine run_ind (P := fun ls s => (∀ k l, Label.session p k l ∈ ls → Costs w o l (cost l)) →
    reportedWeight w p s.net.log + pendAll w p s.sess ≤ bill w cost p ls) t (fun _ => Nat.le_refl _) ?_ ls s hr hc
  intro ls s l s' ih hs hc
  have ih := ih fun k l hm => hc k l (List.mem_append_left _ hm)
  rw [bill_snoc]
  have session : ∀ (k : Nat) (l : Session.Label) (c : Conn) (st st' : Session.State), Label.session c.peer k l ∈ ls ++ [.session c.peer k l] →
      (c.peer = p → Costs w o l (cost l)) → s.sess[k]? = some (c, st) → Session.step o st l = some st' →
      pendAll w p (s.sess.set k (c, st')) + (if c.peer = p then ((told st l).map w).getD 0 else 0) ≤
        pendAll w p s.sess + bill w cost p [.session c.peer k l] := by
    intro k l c st st' _ hcost hk hst
    have h1 := pendAll_set w p s.sess k c st st' hk
    simp only [bill, List.map_cons, List.map_nil, List.sum_cons, List.sum_nil]
    by_cases hp : c.peer = p
    · have h2 := pend_step w st st' l (cost l) (hcost hp) hst
      simp only [hp, if_true] at h1 ⊢
      omega
    · simp only [hp, if_false] at h1 ⊢
      omega
  cases jtr_of_step s s' l hs with
  | net l n hl h sess hsess =>
    rw [weight_net w p s.net n l hl h]
    have : pendAll w p sess = pendAll w p s.sess := by
      rcases hsess with rfl | ⟨c, rfl⟩ | ⟨k, rfl⟩
      · rfl
      · simp [pendAll, pend, Session.init]
      · exact pendAll_modify w p s.sess k
    rw [this]
    omega
  | gossip c e n h =>
    rw [weight_report w p s.net n c e h]
    have : bill w cost p [.gossip c e] = if c.peer = p then w e else 0 := by simp [bill]
    simp only [this]
    omega
  | quiet k l c st st' hl hk h ht =>
    have := session k l c st st' (by simp) (fun hp => hc k l (by simp [hp])) hk h
    rw [ht] at this
    simp only [Option.map_none, Option.getD_none, ite_self, Nat.add_zero] at this
    simp only
    omega
  | tells k l c st st' e n hl hk h ht hn =>
    have := session k l c st st' (by simp) (fun hp => hc k l (by simp [hp])) hk h
    rw [ht] at this
    simp only [Option.map_some, Option.getD_some] at this
    rw [weight_report w p s.net n c e hn]
    simp only
    omega

end Joint
end KP2P

import Verif.Proof.Enforce
import Verif.Proof.Fair
import Verif.Spec.Enforce
/-!
# C97-C102: what becomes of peers that misbehave
-/

namespace KP2P
open KP2P.Enforce KP2P.Spec
open KP2P.ErrHandler (Event)

variable {d : Spec.Decay} {o : ErrOpts}

/-! ## Invariants -/

/-- Everything in the system stems from an established connection. -/
private structure InvA (s : Enforce.State) : Prop where
  live : ∀ c ∈ s.live, Admitted s.log c
  up : ∀ c, CM.Event.connected c ∈ s.notes → Admitted s.log c
  down : ∀ c, CM.Event.disconnected c ∈ s.notes → Admitted s.log c
  table : ∀ p x, s.cm.peers.get p = some x → x.conn.peer = p ∧ Admitted s.log x.conn
  errs : ∀ c e, (c, e) ∈ s.errs → Admitted s.log c
  charged : ∀ c e a sc t, Obs.charged c e a sc t ∈ s.log →
    Admitted s.log c ∧ ∃ c', Admitted s.log c' ∧ c'.peer = c.peer ∧ c'.addr = a

private theorem adm_mono {new old : List Obs} {c : Conn} (h : Admitted old c) : Admitted (new ++ old) c :=
  h.imp fun _ ht => List.mem_append_right _ ht

/-- Same connections, longer log. -/
private theorem InvA.extend {s s' : Enforce.State} (hi : InvA s) (new : List Obs) (hl : s'.log = new ++ s.log)
    (h1 : ∀ c ∈ s'.live, c ∈ s.live ∨ Admitted s'.log c)
    (h2 : ∀ c, CM.Event.connected c ∈ s'.notes → CM.Event.connected c ∈ s.notes ∨ Admitted s'.log c)
    (h3 : ∀ c, CM.Event.disconnected c ∈ s'.notes → CM.Event.disconnected c ∈ s.notes ∨ Admitted s'.log c)
    (h4 : ∀ p x, s'.cm.peers.get p = some x → s.cm.peers.get p = some x ∨ (x.conn.peer = p ∧ Admitted s'.log x.conn))
    (h5 : ∀ c e, (c, e) ∈ s'.errs → (c, e) ∈ s.errs ∨ Admitted s'.log c)
    (h6 : ∀ c e a sc t, Obs.charged c e a sc t ∈ new →
      Admitted s'.log c ∧ ∃ c', Admitted s'.log c' ∧ c'.peer = c.peer ∧ c'.addr = a) : InvA s' := by
  have mono : ∀ c, Admitted s.log c → Admitted s'.log c := fun c h => hl ▸ adm_mono h
  refine ⟨fun c h => (h1 c h).elim (fun h => mono c (hi.live c h)) id,
    fun c h => (h2 c h).elim (fun h => mono c (hi.up c h)) id,
    fun c h => (h3 c h).elim (fun h => mono c (hi.down c h)) id,
    fun p x h => (h4 p x h).elim (fun h => ⟨(hi.table p x h).1, mono _ (hi.table p x h).2⟩) id,
    fun c e h => (h5 c e h).elim (fun h => mono c (hi.errs c e h)) id, ?_⟩
  intro c e a sc t h
  rw [hl] at h
  rcases List.mem_append.1 h with h | h
  · exact h6 c e a sc t h
  · obtain ⟨g1, c', g2, g3⟩ := hi.charged c e a sc t h
    exact ⟨mono c g1, c', mono c' g2, g3⟩

private theorem invA_step (s : Enforce.State) (l : Enforce.Label) (s' : Enforce.State) (hi : InvA s)
    (hs : Enforce.step d o s l = some s') : InvA s' := by
  cases tr_of_step s s' l hs with
  | knockIn p a h =>
    exact hi.extend [] rfl (fun _ => Or.inl) (fun _ => Or.inl) (fun _ => Or.inl) (fun _ _ => Or.inl) (fun _ _ => Or.inl) (by simp)
  | knockOut p a h =>
    exact hi.extend [_] rfl (fun _ => Or.inl) (fun _ => Or.inl) (fun _ => Or.inl) (fun _ _ => Or.inl) (fun _ _ => Or.inl) (by simp)
  | secureIn i c hc h =>
    exact hi.extend [_] rfl (fun _ => Or.inl) (fun _ => Or.inl) (fun _ => Or.inl) (fun _ _ => Or.inl) (fun _ _ => Or.inl) (by simp)
  | establish i c hc =>
    have hadm : Admitted (Obs.admitted c s.now :: s.log) c := ⟨s.now, List.mem_cons_self ..⟩
    refine hi.extend [.admitted c s.now] rfl (fun x hx => ?_) (fun x hx => ?_) (fun x hx => ?_) (fun _ _ => Or.inl)
      (fun _ _ => Or.inl) (by simp)
    · rcases List.mem_append.1 hx with hx | hx
      · exact Or.inl hx
      · rw [List.mem_singleton.1 hx]; exact Or.inr hadm
    · rcases List.mem_append.1 hx with hx | hx
      · exact Or.inl hx
      · cases List.mem_singleton.1 hx; exact Or.inr hadm
    · rcases List.mem_append.1 hx with hx | hx
      · exact Or.inl hx
      · cases List.mem_singleton.1 hx
  | secureOut i c hc h =>
    exact hi.extend [_] rfl (fun _ => Or.inl) (fun _ => Or.inl) (fun _ => Or.inl) (fun _ _ => Or.inl) (fun _ _ => Or.inl) (by simp)
  | note i e he hearly =>
    refine hi.extend [] rfl (fun _ => Or.inl) (fun c hc => Or.inl (List.mem_of_mem_eraseIdx hc))
      (fun c hc => Or.inl (List.mem_of_mem_eraseIdx hc)) (fun p x hx => ?_) (fun _ _ => Or.inl) (by simp)
    have hmem := List.mem_of_getElem? he
    dsimp only at hx
    cases e with
    | connected c =>
      simp only [CM.step, CM.handleConnected] at hx
      split at hx
      · exact Or.inl hx
      split at hx
      · exact Or.inl hx
      simp only [GoMap.get_set] at hx
      split at hx
      · rename_i heq
        cases hx
        exact Or.inr ⟨heq.symm, hi.up c hmem⟩
      · exact Or.inl hx
    | disconnected c =>
      simp only [CM.step, CM.handleDisconnected] at hx
      split at hx
      · exact Or.inl hx
      split at hx
      · simp only [GoMap.get_del] at hx
        split at hx
        · cases hx
        · exact Or.inl hx
      · exact Or.inl hx
    | shutdown =>
      simp only [CM.step, CM.shutdown] at hx
      split at hx
      · exact Or.inl hx
      · simp at hx
  | report c e hc =>
    refine hi.extend [.reported c e] rfl (fun _ => Or.inl) (fun _ => Or.inl) (fun _ => Or.inl) (fun _ _ => Or.inl)
      (fun c' e' h => ?_) (by simp)
    rcases List.mem_append.1 h with h | h
    · exact Or.inl h
    · cases List.mem_singleton.1 h
      exact Or.inr (adm_mono (new := [_]) hc)
  | charge i c e a hc ha p hp =>
    have hmem := List.mem_of_getElem? hc
    refine hi.extend [_] rfl (fun _ => Or.inl) (fun _ => Or.inl) (fun _ => Or.inl) (fun _ _ => Or.inl)
      (fun c' e' h => Or.inl (List.mem_of_mem_eraseIdx h)) ?_
    intro c' e' a' sc t h
    cases List.mem_singleton.1 h
    refine ⟨adm_mono (new := [_]) (hi.errs c e hmem), ?_⟩
    simp only [CM.getPeerAddress, Option.map_eq_some_iff] at ha
    obtain ⟨x, hx, hxa⟩ := ha
    obtain ⟨g1, g2⟩ := hi.table c.peer x hx
    exact ⟨x.conn, adm_mono (new := [_]) g2, g1, hxa⟩
  | ignore i c e hc ha =>
    exact hi.extend [_] rfl (fun _ => Or.inl) (fun _ => Or.inl) (fun _ => Or.inl) (fun _ _ => Or.inl)
      (fun c' e' h => Or.inl (List.mem_of_mem_eraseIdx h)) (by simp)
  | close i p hc =>
    refine hi.extend _ rfl (fun c h => Or.inl (List.mem_of_mem_filter h)) (fun c h => ?_) (fun c h => ?_) (fun _ _ => Or.inl)
      (fun _ _ => Or.inl) (by simp)
    · rcases List.mem_append.1 h with h | h
      · exact Or.inl h
      · obtain ⟨x, _, hx⟩ := List.mem_map.1 h; cases hx
    · rcases List.mem_append.1 h with h | h
      · exact Or.inl h
      · obtain ⟨x, hx, hxe⟩ := List.mem_map.1 h
        cases hxe
        exact Or.inr (adm_mono (hi.live c (List.mem_of_mem_filter hx)))
  | hangUp c hc =>
    refine hi.extend [_] rfl (fun x h => Or.inl (List.mem_of_mem_erase h)) (fun x h => ?_) (fun x h => ?_) (fun _ _ => Or.inl)
      (fun _ _ => Or.inl) (by simp)
    · rcases List.mem_append.1 h with h | h
      · exact Or.inl h
      · cases List.mem_singleton.1 h
    · rcases List.mem_append.1 h with h | h
      · exact Or.inl h
      · cases List.mem_singleton.1 h
        exact Or.inr (adm_mono (new := [_]) (hi.live c hc))
  | query a =>
    exact hi.extend [] rfl (fun _ => Or.inl) (fun _ => Or.inl) (fun _ => Or.inl) (fun _ _ => Or.inl) (fun _ _ => Or.inl) (by simp)
  | tick n =>
    exact hi.extend [] rfl (fun _ => Or.inl) (fun _ => Or.inl) (fun _ => Or.inl) (fun _ _ => Or.inl) (fun _ _ => Or.inl) (by simp)

private theorem invA_reach {s : Enforce.State} (h : Enforce.Reachable d o s) : InvA s := by
  obtain ⟨t, ls, hr⟩ := h
  refine run_ind invA_step ls (Enforce.init t) s ?_ hr
  constructor <;> simp [Enforce.init, CM.init]

/-- The error handler was asked for admission of `a` at `t`, and allowed it. -/
private def Asked (d : Spec.Decay) (o : ErrOpts) (hist : List (Int × Event)) (a : MAddr) (t : Time) : Prop :=
  ∃ h₁ h₂, hist = h₁ ++ (t, Event.canConnect a) :: h₂ ∧
    ((ErrHandler.new.run d o h₁).handle d o t (.canConnect a)).2 = .allowed true

/-- A misbehaviour of peer `p` was entered against `a` at `t`, making the score `sc`. -/
private def Entered (d : Spec.Decay) (o : ErrOpts) (hist : List (Int × Event)) (p : Bytes) (e : Err) (a : MAddr)
    (sc : UInt64) (t : Time) : Prop :=
  ∃ h₁ h₂, hist = h₁ ++ (t, Event.perr p (some a) e) :: h₂ ∧
    sc = ((balance d (entriesFor o a.ip h₁)).at d t).getD 0 + getScoreForError o e

/-- The error handler was asked for admission of `a` at `t`, and refused it. -/
private def Denied (d : Spec.Decay) (o : ErrOpts) (hist : List (Int × Event)) (a : MAddr) (t : Time) : Prop :=
  ∃ h₁ h₂, hist = h₁ ++ (t, Event.canConnect a) :: h₂ ∧
    ((ErrHandler.new.run d o h₁).handle d o t (.canConnect a)).2 ≠ .allowed true

private theorem denied_mono {hist evs : List (Int × Event)} {a : MAddr} {t : Time} (h : Denied d o hist a t) :
    Denied d o (hist ++ evs) a t := by
  obtain ⟨h₁, h₂, rfl, h⟩ := h
  exact ⟨h₁, h₂ ++ evs, by simp, h⟩

private theorem asked_mono {hist evs : List (Int × Event)} {a : MAddr} {t : Time} (h : Asked d o hist a t) :
    Asked d o (hist ++ evs) a t := by
  obtain ⟨h₁, h₂, rfl, h⟩ := h
  exact ⟨h₁, h₂ ++ evs, by simp, h⟩

private theorem entered_mono {hist evs : List (Int × Event)} {p : Bytes} {e : Err} {a : MAddr} {sc : UInt64} {t : Time}
    (h : Entered d o hist p e a sc t) : Entered d o (hist ++ evs) p e a sc t := by
  obtain ⟨h₁, h₂, rfl, h⟩ := h
  exact ⟨h₁, h₂ ++ evs, by simp, h⟩

/-- The log agrees with the score keeper's history. -/
private structure InvL (d : Spec.Decay) (o : ErrOpts) (s : Enforce.State) : Prop where
  base : InvH d o s
  allowed : ∀ c t, Obs.allowed c t ∈ s.log → Asked d o s.hist c.addr t
  refused : ∀ c t, Obs.refused c t ∈ s.log → Denied d o s.hist c.addr t
  charged : ∀ c e a sc t, Obs.charged c e a sc t ∈ s.log → Entered d o s.hist c.peer e a sc t
  closing : ∀ p ∈ s.closing, Convicted o.threshold s.log p
  closed : ∀ post c pre, s.log = post ++ Obs.closed c :: pre → Convicted o.threshold pre c.peer

private theorem convicted_mono {n : UInt64} {new old : List Obs} {p : Bytes} (h : Convicted n old p) :
    Convicted n (new ++ old) p := by
  obtain ⟨c, e, a, sc, t, h1, h2⟩ := h
  exact ⟨c, e, a, sc, t, List.mem_append_right _ h1, h2⟩

private theorem InvL.extend {s s' : Enforce.State} (hi : InvL d o s) (hb : InvH d o s') (new : List Obs)
    (evs : List (Int × Event)) (hl : s'.log = new ++ s.log) (hh : s'.hist = s.hist ++ evs)
    (h1 : ∀ c t, Obs.allowed c t ∈ new → Asked d o s'.hist c.addr t)
    (h5 : ∀ c t, Obs.refused c t ∈ new → Denied d o s'.hist c.addr t)
    (h2 : ∀ c e a sc t, Obs.charged c e a sc t ∈ new → Entered d o s'.hist c.peer e a sc t)
    (h3 : ∀ p ∈ s'.closing, p ∈ s.closing ∨ Convicted o.threshold s'.log p)
    (h4 : ∀ c, Obs.closed c ∈ new → Convicted o.threshold s.log c.peer) : InvL d o s' := by
  refine ⟨hb, ?_, ?_, ?_, ?_, ?_⟩
  · intro c t h
    rw [hl] at h
    rcases List.mem_append.1 h with h | h
    · exact h1 c t h
    · rw [hh]; exact asked_mono (hi.allowed c t h)
  · intro c t h
    rw [hl] at h
    rcases List.mem_append.1 h with h | h
    · exact h5 c t h
    · rw [hh]; exact denied_mono (hi.refused c t h)
  · intro c e a sc t h
    rw [hl] at h
    rcases List.mem_append.1 h with h | h
    · exact h2 c e a sc t h
    · rw [hh]; exact entered_mono (hi.charged c e a sc t h)
  · intro p hp
    rcases h3 p hp with h | h
    · rw [hl]; exact convicted_mono (hi.closing p h)
    · exact h
  · intro post c pre h
    rw [hl] at h
    rcases List.append_eq_append_iff.1 h with ⟨l, rfl, hr⟩ | ⟨l, hl', hr⟩
    · exact hi.closed l c pre hr
    · cases l with
      | nil => exact hi.closed [] c pre (by simpa using hr.symm)
      | cons x l =>
        simp only [List.cons_append, List.cons.injEq] at hr
        obtain ⟨rfl, rfl⟩ := hr
        exact convicted_mono (h4 c (by rw [hl']; simp))

private theorem score_entered (h : ErrHandler) (t : Int) (p : Bytes) (a : MAddr) (e : Err) :
    scoreOf (h.handle d o t (.perr p (some a) e)).1 a = ((h.bal a.ip).at d t).getD 0 + getScoreForError o e := by
  rw [scoreOf_bal, ErrHandler.bal_handle]
  simp only [Event.entryFor, if_true, Balance.post]
  cases (h.bal a.ip).at d t <;> simp

private theorem invL_step (s : Enforce.State) (l : Enforce.Label) (s' : Enforce.State) (hi : InvL d o s)
    (hs : Enforce.step d o s l = some s') : InvL d o s' := by
  have hb := invH_step s l s' hi.base hs
  cases tr_of_step s s' l hs with
  | knockIn p a h =>
    exact hi.extend hb [] [_] rfl rfl (by simp) (by simp) (by simp) (fun _ => Or.inl) (by simp)
  | knockOut p a h =>
    exact hi.extend hb [_] [_] rfl rfl (by simp) (fun c' t h' => by
      cases List.mem_singleton.1 h'
      exact ⟨s.hist, [], rfl, by rw [← hi.base.eh]; exact h⟩) (by simp) (fun _ => Or.inl) (by simp)
  | secureIn i c hc h =>
    refine hi.extend hb [_] [_] rfl rfl ?_ (by simp) (by simp) (fun _ => Or.inl) (by simp)
    intro c' t h'
    cases List.mem_singleton.1 h'
    exact ⟨s.hist, [], rfl, by rw [← hi.base.eh]; exact h⟩
  | establish i c hc =>
    exact hi.extend hb [_] [] rfl (by simp) (by simp) (by simp) (by simp) (fun _ => Or.inl) (by simp)
  | secureOut i c hc h =>
    exact hi.extend hb [_] [_] rfl rfl (by simp) (fun c' t h' => by
      cases List.mem_singleton.1 h'
      exact ⟨s.hist, [], rfl, by rw [← hi.base.eh]; exact h⟩) (by simp) (fun _ => Or.inl) (by simp)
  | note i e he hearly =>
    exact hi.extend hb [] [] rfl (by simp) (by simp) (by simp) (by simp) (fun _ => Or.inl) (by simp)
  | report c e hc =>
    exact hi.extend hb [_] [] rfl (by simp) (by simp) (by simp) (by simp) (fun _ => Or.inl) (by simp)
  | charge i c e a hc ha p hp =>
    refine hi.extend hb [_] [_] rfl rfl (by simp) (by simp) ?_ ?_ (by simp)
    · intro c' e' a' sc t h'
      cases List.mem_singleton.1 h'
      refine ⟨s.hist, [], rfl, ?_⟩
      rw [score_entered, hi.base.eh, ErrHandler.bal_new_run]
    · intro q hq
      rcases List.mem_append.1 hq with hq | hq
      · exact Or.inl hq
      · right
        refine ⟨c, e, a, _, _, List.mem_cons_self .., ?_⟩
        rw [ErrHandler.reaction_perr] at hp
        rw [score_entered]
        injection hp with hp
        split at hp
        · rename_i hge
          subst hp
          simp only [Option.toList_some, List.mem_singleton] at hq
          exact ⟨hq.symm, hge⟩
        · subst hp; simp at hq
  | ignore i c e hc ha =>
    exact hi.extend hb [_] [_] rfl rfl (by simp) (by simp) (by simp) (fun _ => Or.inl) (by simp)
  | close i p hc =>
    have hp := List.mem_of_getElem? hc
    refine hi.extend hb _ [] rfl (by simp) (by simp) (by simp) (by simp) (fun q hq => Or.inl (List.mem_of_mem_eraseIdx hq)) ?_
    intro c h
    simp only [List.mem_reverse, List.mem_map, List.mem_filter, beq_iff_eq, Obs.closed.injEq] at h
    obtain ⟨x, ⟨_, hx⟩, rfl⟩ := h
    rw [hx]
    exact hi.closing p hp
  | hangUp c hc =>
    exact hi.extend hb [_] [] rfl (by simp) (by simp) (by simp) (by simp) (fun _ => Or.inl) (by simp)
  | query a =>
    exact hi.extend hb [] [_] rfl rfl (by simp) (by simp) (by simp) (fun _ => Or.inl) (by simp)
  | tick n =>
    exact hi.extend hb [] [] rfl (by simp) (by simp) (by simp) (by simp) (fun _ => Or.inl) (by simp)

private theorem invL_reach {s : Enforce.State} (h : Enforce.Reachable d o s) : InvL d o s := by
  obtain ⟨t, ls, hr⟩ := h
  refine run_ind invL_step ls (Enforce.init t) s ⟨invH_reach ⟨t, [], rfl⟩, ?_, ?_, ?_, ?_, ?_⟩ hr <;> simp [Enforce.init]

/-- What is established was allowed before. -/
private structure InvU (s : Enforce.State) : Prop where
  upgrading : ∀ c ∈ s.upgrading, ∃ t, t ≤ s.now ∧ Obs.allowed c t ∈ s.log
  admitted : ∀ post c t pre, s.log = post ++ Obs.admitted c t :: pre → ∃ t', t' ≤ t ∧ Obs.allowed c t' ∈ pre

private theorem InvU.extend {s s' : Enforce.State} (hi : InvU s) (new : List Obs) (hl : s'.log = new ++ s.log)
    (hn : s.now ≤ s'.now) (h1 : ∀ c ∈ s'.upgrading, c ∈ s.upgrading ∨ ∃ t, t ≤ s'.now ∧ Obs.allowed c t ∈ new)
    (h2 : ∀ c t, Obs.admitted c t ∈ new → c ∈ s.upgrading ∧ t = s.now) : InvU s' := by
  refine ⟨fun c hc => ?_, fun post c t pre h => ?_⟩
  · rw [hl]
    rcases h1 c hc with h | ⟨t, ht, h⟩
    · obtain ⟨t, ht, h⟩ := hi.upgrading c h
      exact ⟨t, le_trans ht hn, List.mem_append_right _ h⟩
    · exact ⟨t, ht, List.mem_append_left _ h⟩
  · rw [hl] at h
    rcases List.append_eq_append_iff.1 h with ⟨l, rfl, hr⟩ | ⟨l, hl', hr⟩
    · exact hi.admitted l c t pre hr
    · cases l with
      | nil => exact hi.admitted [] c t pre (by simpa using hr.symm)
      | cons x l =>
        simp only [List.cons_append, List.cons.injEq] at hr
        obtain ⟨rfl, rfl⟩ := hr
        obtain ⟨hu, rfl⟩ := h2 c t (by rw [hl']; simp)
        obtain ⟨t', ht', h'⟩ := hi.upgrading c hu
        exact ⟨t', ht', List.mem_append_right _ h'⟩

private theorem invU_step (s : Enforce.State) (l : Enforce.Label) (s' : Enforce.State) (hi : InvU s)
    (hs : Enforce.step d o s l = some s') : InvU s' := by
  cases tr_of_step s s' l hs with
  | knockIn p a h => exact hi.extend [] rfl (le_refl _) (fun _ => Or.inl) (by simp)
  | knockOut p a h => exact hi.extend [_] rfl (le_refl _) (fun _ => Or.inl) (by simp)
  | secureIn i c hc h =>
    refine hi.extend [.allowed c s.now] rfl (le_refl _) (fun x hx => ?_) (by simp)
    rcases List.mem_append.1 hx with hx | hx
    · exact Or.inl hx
    · rw [List.mem_singleton.1 hx]; exact Or.inr ⟨s.now, le_refl _, List.mem_singleton.2 rfl⟩
  | secureOut i c hc h => exact hi.extend [_] rfl (le_refl _) (fun _ => Or.inl) (by simp)
  | establish i c hc =>
    refine hi.extend [.admitted c s.now] rfl (le_refl _) (fun x hx => Or.inl (List.mem_of_mem_eraseIdx hx)) ?_
    intro c' t h
    cases List.mem_singleton.1 h
    exact ⟨List.mem_of_getElem? hc, rfl⟩
  | note i e he hearly => exact hi.extend [] rfl (le_refl _) (fun _ => Or.inl) (by simp)
  | report c e hc => exact hi.extend [_] rfl (le_refl _) (fun _ => Or.inl) (by simp)
  | charge i c e a hc ha p hp => exact hi.extend [_] rfl (le_refl _) (fun _ => Or.inl) (by simp)
  | ignore i c e hc ha => exact hi.extend [_] rfl (le_refl _) (fun _ => Or.inl) (by simp)
  | close i p hc => exact hi.extend _ rfl (le_refl _) (fun _ => Or.inl) (by simp)
  | hangUp c hc => exact hi.extend [_] rfl (le_refl _) (fun _ => Or.inl) (by simp)
  | query a => exact hi.extend [] rfl (le_refl _) (fun _ => Or.inl) (by simp)
  | tick n => exact hi.extend [] rfl (by simp) (fun _ => Or.inl) (by simp)

private theorem invU_reach {s : Enforce.State} (h : Enforce.Reachable d o s) : InvU s := by
  obtain ⟨t, ls, hr⟩ := h
  refine run_ind invU_step ls (Enforce.init t) s ⟨?_, ?_⟩ hr <;> simp [Enforce.init]

/-! ## C102: who is let in -/

/-- C102 (partial: the question is asked before the connection is established, not at that instant): every connection that
is established was allowed before. -/
theorem C102_established_partial (s : Enforce.State) (h : Enforce.Reachable d o s) (post : List Obs) (c : Conn) (t : Time)
    (pre : List Obs) (hc : s.log = post ++ Obs.admitted c t :: pre) : ∃ t', t' ≤ t ∧ Obs.allowed c t' ∈ pre :=
  (invU_reach h).admitted post c t pre hc

/-- C102. Every connection that is allowed was asked about at that instant, and its address then had no score, or one
below the limit for reconnection. -/
theorem C102_allowed_partial (s : Enforce.State) (h : Enforce.Reachable d o s) (c : Conn) (t : Time)
    (hc : Obs.allowed c t ∈ s.log) :
    ∃ h₁ h₂, s.hist = h₁ ++ (t, Event.canConnect c.addr) :: h₂ ∧
      (balance d (entriesFor o c.addr.ip h₁) = none ∨
        ∃ sc, (balance d (entriesFor o c.addr.ip h₁)).at d t = some sc ∧ sc < o.reconnect) := by
  obtain ⟨h₁, h₂, he, ha⟩ := (invL_reach h).allowed c t hc
  refine ⟨h₁, h₂, he, ?_⟩
  rw [ErrHandler.reaction_canConnect, ErrHandler.bal_new_run] at ha
  cases hb : balance d (entriesFor o c.addr.ip h₁) with
  | none => exact Or.inl rfl
  | some b =>
    rw [hb] at ha
    simp only [Balance.at, Option.map_some, ErrHandler.Reaction.allowed.injEq, decide_eq_true_eq] at ha
    exact Or.inr ⟨_, rfl, ha⟩

/-- C102. Nobody is refused without cause: the address had a score at or above the limit for reconnection. -/
theorem C102_refused (s : Enforce.State) (h : Enforce.Reachable d o s) (c : Conn) (t : Time)
    (hc : Obs.refused c t ∈ s.log) :
    ∃ h₁ h₂ sc, s.hist = h₁ ++ (t, Event.canConnect c.addr) :: h₂ ∧
      (balance d (entriesFor o c.addr.ip h₁)).at d t = some sc ∧ o.reconnect ≤ sc := by
  obtain ⟨h₁, h₂, he, ha⟩ := (invL_reach h).refused c t hc
  rw [ErrHandler.reaction_canConnect, ErrHandler.bal_new_run] at ha
  cases hb : balance d (entriesFor o c.addr.ip h₁) with
  | none => rw [hb] at ha; simp [Balance.at] at ha
  | some b =>
    rw [hb] at ha
    refine ⟨h₁, h₂, d (t - b.1) b.2, he, by rw [hb]; rfl, ?_⟩
    simpa [Balance.at] using ha

/-- C102. Whatever exists was let in: live connections, tracked connections, and the connections errors are reported of. -/
theorem C102_all_let_in (s : Enforce.State) (h : Enforce.Reachable d o s) :
    (∀ c ∈ s.live, Admitted s.log c) ∧ (∀ p x, s.cm.peers.get p = some x → x.conn.peer = p ∧ Admitted s.log x.conn) ∧
    (∀ c e, (c, e) ∈ s.errs → Admitted s.log c) :=
  ⟨(invA_reach h).live, (invA_reach h).table, (invA_reach h).errs⟩

/-- C102. What the connection manager is told of are connections that were let in. -/
theorem C102_announced (s : Enforce.State) (h : Enforce.Reachable d o s) :
    (∀ c, CM.Event.connected c ∈ s.notes → Admitted s.log c) ∧ (∀ c, CM.Event.disconnected c ∈ s.notes → Admitted s.log c) :=
  ⟨(invA_reach h).up, (invA_reach h).down⟩

/-! ## C97: banned addresses -/

/-- C97. After a request to disconnect a peer has been carried out, the peer has no connection, and every connection it has
later was established after that, and was allowed after that as well unless it was just being established. -/
theorem C97_offender_gone_partial (s s₁ s₂ : Enforce.State) (i : Nat) (p : Bytes) (hi : s.closing[i]? = some p)
    (hs : Enforce.step d o s (.close i) = some s₁) (ls : List Enforce.Label) (hr : Enforce.run d o s₁ ls = some s₂) :
    (∀ c ∈ s₁.live, c.peer ≠ p) ∧
    ∃ new, s₂.log = new ++ s₁.log ∧
      ∀ c ∈ s₂.live, c.peer = p → Admitted new c ∧ (c ∈ s₁.upgrading ∨ ∃ t, Obs.allowed c t ∈ new) := by
  have h1 : ∀ c ∈ s₁.live, c.peer ≠ p := by
    cases tr_of_step s s₁ _ hs with
    | close i q hq =>
      rw [hi] at hq
      cases hq
      intro c hc
      simpa using (List.mem_filter.1 hc).2
  refine ⟨h1, ?_⟩
  suffices hk : ∃ new, s₂.log = new ++ s₁.log ∧
      (∀ c ∈ s₂.live, c.peer = p → Admitted new c ∧ (c ∈ s₁.upgrading ∨ ∃ t, Obs.allowed c t ∈ new)) ∧
      ∀ c ∈ s₂.upgrading, c ∈ s₁.upgrading ∨ ∃ t, Obs.allowed c t ∈ new by
    obtain ⟨new, h, h', _⟩ := hk; exact ⟨new, h, h'⟩
  refine run_ind (P := fun x => ∃ new, x.log = new ++ s₁.log ∧
      (∀ c ∈ x.live, c.peer = p → Admitted new c ∧ (c ∈ s₁.upgrading ∨ ∃ t, Obs.allowed c t ∈ new)) ∧
      ∀ c ∈ x.upgrading, c ∈ s₁.upgrading ∨ ∃ t, Obs.allowed c t ∈ new)
    (fun x l x' hx hst => ?_) ls s₁ s₂ ⟨[], rfl, fun c hc hp => absurd hp (h1 c hc), fun c hc => Or.inl hc⟩ hr
  obtain ⟨new, hl, hx, hu⟩ := hx
  have same : ∀ (y : Enforce.State) (more : List Obs), y.log = more ++ x.log →
      (∀ c ∈ y.live, c ∈ x.live ∨ (Admitted more c ∧ c ∈ x.upgrading)) →
      (∀ c ∈ y.upgrading, c ∈ x.upgrading ∨ ∃ t, Obs.allowed c t ∈ more) →
      ∃ new, y.log = new ++ s₁.log ∧
        (∀ c ∈ y.live, c.peer = p → Admitted new c ∧ (c ∈ s₁.upgrading ∨ ∃ t, Obs.allowed c t ∈ new)) ∧
        ∀ c ∈ y.upgrading, c ∈ s₁.upgrading ∨ ∃ t, Obs.allowed c t ∈ new := by
    intro y more hy hlive hup
    have old : ∀ c, (c ∈ s₁.upgrading ∨ ∃ t, Obs.allowed c t ∈ new) →
        (c ∈ s₁.upgrading ∨ ∃ t, Obs.allowed c t ∈ more ++ new) :=
      fun c h => h.imp_right fun ⟨t, ht⟩ => ⟨t, List.mem_append_right _ ht⟩
    refine ⟨more ++ new, by rw [hy, hl, List.append_assoc], fun c hc hp => ?_, fun c hc => ?_⟩
    · rcases hlive c hc with h | ⟨h, h'⟩
      · exact ⟨adm_mono (hx c h hp).1, old c (hx c h hp).2⟩
      · exact ⟨h.imp fun _ ht => List.mem_append_left _ ht, old c (hu c h')⟩
    · rcases hup c hc with h | ⟨t, h⟩
      · exact old c (hu c h)
      · exact Or.inr ⟨t, List.mem_append_left _ h⟩
  cases tr_of_step x x' l hst with
  | knockIn => exact same _ [] rfl (fun _ => Or.inl) fun _ => Or.inl
  | knockOut => exact same _ [_] rfl (fun _ => Or.inl) fun _ => Or.inl
  | secureIn i c hc h =>
    refine same _ [.allowed c x.now] rfl (fun _ => Or.inl) fun c' hc' => ?_
    rcases List.mem_append.1 hc' with h | h
    · exact Or.inl h
    · rw [List.mem_singleton.1 h]; exact Or.inr ⟨_, List.mem_cons_self ..⟩
  | establish i c hc =>
    refine same _ [.admitted c x.now] rfl (fun c' hc' => ?_) fun c' hc' => Or.inl (List.mem_of_mem_eraseIdx hc')
    rcases List.mem_append.1 hc' with h | h
    · exact Or.inl h
    · rw [List.mem_singleton.1 h]; exact Or.inr ⟨⟨_, List.mem_cons_self ..⟩, List.mem_of_getElem? hc⟩
  | secureOut => exact same _ [_] rfl (fun _ => Or.inl) fun _ => Or.inl
  | note => exact same _ [] rfl (fun _ => Or.inl) fun _ => Or.inl
  | report => exact same _ [_] rfl (fun _ => Or.inl) fun _ => Or.inl
  | charge => exact same _ [_] rfl (fun _ => Or.inl) fun _ => Or.inl
  | ignore => exact same _ [_] rfl (fun _ => Or.inl) fun _ => Or.inl
  | close => exact same _ _ rfl (fun _ h => Or.inl (List.mem_of_mem_filter h)) fun _ => Or.inl
  | hangUp => exact same _ [_] rfl (fun _ h => Or.inl (List.mem_of_mem_erase h)) fun _ => Or.inl
  | query => exact same _ [] rfl (fun _ => Or.inl) fun _ => Or.inl
  | tick => exact same _ [] rfl (fun _ => Or.inl) fun _ => Or.inl

/-- C97. How long an address is kept out, whatever else happens: after a charge that made the score of an address `S`, a
connection from it is allowed only if the ideal decay of `S` is below the limit for reconnection plus the number of
times the address was charged or asked about (64-bit overflow excluded). -/
theorem C97_kept_out_partial {hl : Int} (hh : 0 < hl) (s s' : Enforce.State)
    (h : Enforce.Reachable (realDecay hl) o s) (c₀ : Conn) (e : Err) (a : MAddr) (S : UInt64) (t₀ : Time)
    (hc : Obs.charged c₀ e a S t₀ ∈ s.log) (i : Nat) (c : Conn) (hip : c.addr.ip = a.ip)
    (hs : Enforce.step (realDecay hl) o s (.secure i) = some s') (hin : s'.log = .allowed c s.now :: s.log)
    (hsum : totalCharged (entriesFor o a.ip s.hist) < 2 ^ 64) :
    (S.toNat : ℝ) * Real.exp (-1 * (Real.log 2 / hl) * (s.now - t₀ : Int)) <
      o.reconnect.toNat + (entriesFor o a.ip s.hist).length := by
  have hL := invL_reach h
  have hH := hL.base
  obtain ⟨h₁, h₂, he, hS⟩ := hL.charged c₀ e a S t₀ hc
  have hallow : ((s.eh).handle (realDecay hl) o s.now (.canConnect c.addr)).2 = .allowed true := by
    cases tr_of_step s s' _ hs with
    | secureIn i c' hc' hal =>
      simp only [List.cons.injEq, Obs.allowed.injEq, and_true] at hin
      rw [← hin]; exact hal
    | secureOut i c' hc' hal => simp at hin
  have hent : entriesFor o a.ip s.hist = entriesFor o a.ip h₁ ++ (t₀, .charge (getScoreForError o e)) :: entriesFor o a.ip h₂ := by
    rw [he, entriesFor_append]
    congr 1
    simp [entriesFor, Event.entryFor]
  have hbal : balance (realDecay hl) (entriesFor o a.ip h₁ ++ [(t₀, .charge (getScoreForError o e))]) = some (t₀, S) := by
    rw [balance_snoc, hS]
    simp only [Balance.post]
    cases (balance (realDecay hl) (entriesFor o a.ip h₁)).at (realDecay hl) t₀ <;> simp
  have hsub : ∀ hist : List (Int × Event), ((entriesFor o a.ip hist).map Prod.fst).Sublist (hist.map Prod.fst) := by
    intro hist
    induction hist with
    | nil => exact List.Sublist.slnil
    | cons x hist ih =>
      simp only [entriesFor, List.filterMap_cons] at ih ⊢
      cases x.2.entryFor o a.ip with
      | none => exact List.Sublist.cons _ ih
      | some y => exact List.Sublist.cons_cons _ ih
  have hord : ((entriesFor o a.ip s.hist).map Prod.fst ++ [s.now]).Pairwise (· ≤ ·) := by
    rw [List.pairwise_append]
    refine ⟨hH.sorted.sublist (hsub _), List.pairwise_singleton .., ?_⟩
    intro x hx y hy
    rw [List.mem_singleton.1 hy]
    obtain ⟨z, hz, rfl⟩ := List.mem_map.1 ((hsub s.hist).subset hx)
    exact hH.past z hz
  rw [hent] at hord hsum ⊢
  have hSle : S.toNat ≤ totalCharged (entriesFor o a.ip h₁ ++ [(t₀, .charge (getScoreForError o e))]) := by
    refine (balance_le (realDecay hl) (realDecay_nonIncreasing hh) _ ?_ t₀ S hbal).1
    unfold InOrder
    refine hord.sublist ?_
    simp only [List.map_append, List.map_cons, List.map_nil, List.append_assoc, List.cons_append]
    exact List.Sublist.append_left (List.Sublist.cons_cons _ (List.nil_sublist _)) _
  rw [totalCharged_append] at hSle
  rw [totalCharged_append] at hsum
  obtain ⟨s₁, hb₁, hlow⟩ := entries_lower hh (entriesFor o a.ip h₂ ++ [(s.now, .read)]) t₀ S (by
      refine hord.sublist ?_
      simp only [List.map_append, List.map_cons, List.map_nil, List.append_assoc, List.cons_append]
      exact List.sublist_append_right ..) (by
      rw [totalCharged_append]
      cases hg : getScoreForError o e
      simp only [totalCharged] at hSle hsum ⊢
      omega)
  have hsee : (balance (realDecay hl) (entriesFor o a.ip s.hist)).at (realDecay hl) s.now = some s₁ := by
    have hb₂ : balanceFrom (realDecay hl) (some (t₀, S)) (entriesFor o a.ip h₂ ++ [(s.now, .read)]) =
        (balance (realDecay hl) (entriesFor o a.ip s.hist)).post (realDecay hl) s.now .read := by
      rw [← balance_snoc, hent, ← hbal, ← balance_append]
      simp
    rw [hb₂] at hb₁
    simp only [Balance.post, Option.map_eq_some_iff, Prod.mk.injEq] at hb₁
    obtain ⟨y, hy, _, rfl⟩ := hb₁
    exact hy
  rw [hH.eh, ErrHandler.reaction_canConnect, ErrHandler.bal_new_run, hip, hsee] at hallow
  simp only [ErrHandler.Reaction.allowed.injEq, decide_eq_true_eq] at hallow
  have hlt : s₁.toNat < o.reconnect.toNat := UInt64.lt_iff_toNat_lt.1 hallow
  have hlt' : (s₁.toNat : ℝ) + 1 ≤ o.reconnect.toNat := by exact_mod_cast hlt
  simp only [List.map_append, List.map_cons, List.map_nil, List.getLastD_concat, List.length_append, List.length_cons,
    List.length_nil] at hlow ⊢
  unfold factor at hlow
  push_cast at hlow ⊢
  have : (0 : ℝ) ≤ (entriesFor o a.ip h₁).length := Nat.cast_nonneg _
  linarith

/-- C97 with the default options: for half an hour after a score of 200000 or more (a severe error) no connection from the
address is established, unless the address was charged or asked about more than 50000 times. -/
theorem C97_half_hour_partial (s s' : Enforce.State)
    (h : Enforce.Reachable (realDecay ErrOpts.default.halflife) .default s) (c₀ : Conn) (e : Err) (a : MAddr) (S : UInt64)
    (t₀ : Time) (hc : Obs.charged c₀ e a S t₀ ∈ s.log) (hS : 200000 ≤ S.toNat)
    (ht : s.now - t₀ ≤ 30 * 60 * 1000000000) (hn : (entriesFor .default a.ip s.hist).length ≤ 50000)
    (hsum : totalCharged (entriesFor .default a.ip s.hist) < 2 ^ 64) (i : Nat) (c : Conn) (hip : c.addr.ip = a.ip)
    (hs : Enforce.step (realDecay ErrOpts.default.halflife) .default s (.secure i) = some s') :
    s'.log ≠ .allowed c s.now :: s.log := by
  intro hin
  have hpos : 0 < ErrOpts.default.halflife := by decide +kernel
  have h1 := C97_kept_out_partial hpos s s' h c₀ e a S t₀ hc i c hip hs hin hsum
  have hrec : ErrOpts.default.reconnect.toNat = 50000 := by decide +kernel
  have hhl : ErrOpts.default.halflife = 30 * 60 * 1000000000 := by decide +kernel
  have h2 : (1 / 2 : ℝ) ≤ factor ErrOpts.default.halflife (s.now - t₀) := by
    have h3 := factor_halflives hpos 1
    simp only [Nat.cast_one, one_mul, pow_one] at h3
    rw [← h3]
    by_contra hcon
    have := (factor_lt_iff hpos ErrOpts.default.halflife (s.now - t₀)).1 (not_le.1 hcon)
    omega
  unfold factor at h2
  rw [hrec] at h1
  have hS' : (200000 : ℝ) ≤ S.toNat := by exact_mod_cast hS
  have hn' : ((entriesFor .default a.ip s.hist).length : ℝ) ≤ 50000 := by exact_mod_cast hn
  push_cast at h1 h2
  nlinarith

private def pA : Bytes := [1]
private def pB : Bytes := [2]
private def home : MAddr := ⟨[10], [[80]]⟩
private def home' : MAddr := ⟨[10], [[81]]⟩
private def away : MAddr := ⟨[20], [[80]]⟩
private def bomb : Err := .sentinel .forkBomb

/-- Peers A and B share an address; A is banned. -/
private def banA : List Enforce.Label :=
  [.knock pA home, .secure 0, .establish 0, .note 0, .knock pB home', .secure 0, .establish 0, .note 0,
    .report ⟨pA, home, 0⟩ bomb, .handle 0, .close 0, .note 0]

/-- C97 fails: an address at twice the limit keeps a connection, that of another peer, though nothing is pending. This holds
for every decay law. -/
theorem C97_banned_refuted (d : Spec.Decay) (t : Time) :
    ∃ ls s, Enforce.run d .default (Enforce.init t) ls = some s ∧ s.closing = [] ∧ s.errs = [] ∧ s.notes = [] ∧
      ∃ c e a, Obs.charged c e a 200000 t ∈ s.log ∧ ∃ c' ∈ s.live, c'.addr.ip = a.ip :=
  ⟨banA, _, rfl, rfl, rfl, rfl, ⟨pA, home, 0⟩, bomb, home, .tail _ (.head _), ⟨pB, home', 1⟩, .head _, rfl⟩

/-- Peer A misbehaves over one connection while another one of its own has been allowed and is being established. -/
private def slips : List Enforce.Label :=
  [.knock pA home, .secure 0, .establish 0, .note 0, .knock pA home, .secure 0, .report ⟨pA, home, 0⟩ bomb, .handle 0,
    .close 0, .note 0, .establish 0, .note 0]

/-- C97 fails even for the offender: a connection that was allowed before the offence is established after the peer was
disconnected, and the peer stays. This holds for every decay law. -/
theorem C97_slips_in_refuted (d : Spec.Decay) (t : Time) :
    ∃ ls s, Enforce.run d .default (Enforce.init t) ls = some s ∧ s.closing = [] ∧ s.errs = [] ∧ s.notes = [] ∧
      s.knocking = [] ∧ s.upgrading = [] ∧
      ∃ c e a, Obs.charged c e a 200000 t ∈ s.log ∧ ∃ c' ∈ s.live, c'.peer = c.peer ∧ c'.addr.ip = a.ip :=
  ⟨slips, _, rfl, rfl, rfl, rfl, rfl, rfl, ⟨pA, home, 0⟩, bomb, home, .tail _ (.tail _ (.head _)), ⟨pA, home, 1⟩, .head _, rfl, rfl⟩

/-- C102 fails at the instant of establishment: the connection is established though the score of its address is at twice
the limit for disconnection at that instant. -/
theorem C102_window_refuted (d : Spec.Decay) (hd : ∀ s, d 0 s = s) (t : Time) :
    ∃ ls s i s' c, Enforce.run d .default (Enforce.init t) ls = some s ∧ Enforce.step d .default s (.establish i) = some s' ∧
      s'.log = .admitted c s.now :: s.log ∧
      (balance d (entriesFor .default c.addr.ip s.hist)).at d s.now = some 200000 := by
  refine ⟨slips.take 10, _, 0, _, ⟨pA, home, 1⟩, rfl, rfl, rfl, ?_⟩
  show some (d (t - t) 200000) = some 200000
  rw [Int.sub_self, hd]

/-- C97 fails for good: a connection stays for as long as it is not ended from the other side and no error of its peer is
reported, whatever becomes of the score of its address. -/
theorem C97_neighbour_stays_refuted (s s' : Enforce.State) (ls : List Enforce.Label)
    (hr : Enforce.run d o s ls = some s') (c : Conn) (hc : c ∈ s.live) (h1 : c.peer ∉ s.closing)
    (h2 : ∀ c' e, (c', e) ∈ s.errs → c'.peer ≠ c.peer) (h3 : ∀ c' e, Enforce.Label.report c' e ∈ ls → c'.peer ≠ c.peer)
    (h4 : Enforce.Label.hangUp c ∉ ls) : c ∈ s'.live := by
  induction ls generalizing s with
  | nil => cases hr; exact hc
  | cons l ls ih =>
    simp only [Enforce.run] at hr
    split at hr
    · rename_i s₁ hs
      have h3' : ∀ c' e, Enforce.Label.report c' e ∈ ls → c'.peer ≠ c.peer := fun c' e h => h3 c' e (List.mem_cons_of_mem _ h)
      have h4' : Enforce.Label.hangUp c ∉ ls := fun h => h4 (List.mem_cons_of_mem _ h)
      cases tr_of_step s s₁ l hs with
      | secureIn => exact ih _ hr hc h1 h2 h3' h4'
      | establish i x hx => exact ih _ hr (List.mem_append_left _ hc) h1 h2 h3' h4'
      | report x e hx =>
        refine ih _ hr hc h1 (fun c' e' h => ?_) h3' h4'
        rcases List.mem_append.1 h with h | h
        · exact h2 c' e' h
        · cases List.mem_singleton.1 h; exact h3 x e (List.mem_cons_self ..)
      | charge i x e a hx ha p hp =>
        refine ih _ hr hc (fun h => ?_) (fun c' e' h => h2 c' e' (List.mem_of_mem_eraseIdx h)) h3' h4'
        rcases List.mem_append.1 h with h | h
        · exact h1 h
        · have hne := h2 x e (List.mem_of_getElem? hx)
          rw [ErrHandler.reaction_perr] at hp
          injection hp with hp
          subst hp
          split at h
          · simp only [Option.toList_some, List.mem_singleton] at h; exact hne h.symm
          · simp at h
      | ignore i x e hx ha => exact ih _ hr hc h1 (fun c' e' h => h2 c' e' (List.mem_of_mem_eraseIdx h)) h3' h4'
      | close i p hp =>
        refine ih _ hr (List.mem_filter.2 ⟨hc, ?_⟩) (fun h => h1 (List.mem_of_mem_eraseIdx h)) h2 h3' h4'
        have : c.peer ≠ p := fun h => h1 (h ▸ List.mem_of_getElem? hp)
        simpa using this
      | hangUp x hx =>
        refine ih _ hr ?_ h1 h2 h3' h4'
        have : c ≠ x := fun h => h4 (h ▸ List.mem_cons_self ..)
        exact (List.mem_erase_of_ne this).2 hc
      | knockIn => exact ih _ hr hc h1 h2 h3' h4'
      | knockOut => exact ih _ hr hc h1 h2 h3' h4'
      | secureOut => exact ih _ hr hc h1 h2 h3' h4'
      | note => exact ih _ hr hc h1 h2 h3' h4'
      | query => exact ih _ hr hc h1 h2 h3' h4'
      | tick => exact ih _ hr hc h1 h2 h3' h4'
    · cases hr

/-! ## C98: which address is charged -/

/-- C98. A report is only ever charged to an address from which the same peer was connected. -/
theorem C98_same_peer_partial (s : Enforce.State) (h : Enforce.Reachable d o s) (c : Conn) (e : Err) (a : MAddr)
    (sc : UInt64) (t : Time) (hc : Obs.charged c e a sc t ∈ s.log) :
    ∃ c', Admitted s.log c' ∧ c'.peer = c.peer ∧ c'.addr = a :=
  ((invA_reach h).charged c e a sc t hc).2

/-- C98 for peers that were never connected from different hosts. -/
theorem C98_one_host_partial (s : Enforce.State) (h : Enforce.Reachable d o s) (c : Conn) (e : Err) (a : MAddr)
    (sc : UInt64) (t : Time) (hc : Obs.charged c e a sc t ∈ s.log)
    (hone : ∀ c₁ c₂, Admitted s.log c₁ → Admitted s.log c₂ → c₁.peer = c.peer → c₂.peer = c.peer → c₁.addr.ip = c₂.addr.ip) :
    a.ip = c.addr.ip := by
  obtain ⟨h1, c', h2, h3, h4⟩ := (invA_reach h).charged c e a sc t hc
  rw [← h4]
  exact hone c' c h2 h1 h3 rfl

/-- C98. The amount is the one of the error, on top of what the address had. -/
theorem C98_amount (s : Enforce.State) (h : Enforce.Reachable d o s) (c : Conn) (e : Err) (a : MAddr) (sc : UInt64)
    (t : Time) (hc : Obs.charged c e a sc t ∈ s.log) :
    ∃ h₁ h₂, s.hist = h₁ ++ (t, Event.perr c.peer (some a) e) :: h₂ ∧
      sc = ((balance d (entriesFor o a.ip h₁)).at d t).getD 0 + getScoreForError o e :=
  (invL_reach h).charged c e a sc t hc

/-- C98 fails: a peer misbehaves, ends the connection and comes back from another host before the report is taken up: the
other host is charged, and the first one has no score. -/
theorem C98_origin_refuted (d : Spec.Decay) (t : Time) :
    ∃ ls s, Enforce.run d .default (Enforce.init t) ls = some s ∧
      (∃ c e a sc, Obs.charged c e a sc t ∈ s.log ∧ a.ip ≠ c.addr.ip ∧ s.eh.scores.get c.addr.ip = none) :=
  ⟨[.knock pA home, .secure 0, .establish 0, .note 0, .report ⟨pA, home, 0⟩ bomb, .hangUp ⟨pA, home, 0⟩, .note 0, .knock pA away, .secure 0,
    .establish 0, .note 0, .handle 0], _, rfl, ⟨pA, home, 0⟩, bomb, away, _, List.mem_cons_self .., by decide, rfl⟩

/-! ## C99: who is disconnected -/

/-- C99. The node closes connections only of peers of which an error was charged that brought (or found) the score of the
address to the limit, or beyond. -/
theorem C99_cause_partial (s : Enforce.State) (h : Enforce.Reachable d o s) (post pre : List Obs) (c : Conn)
    (hl : s.log = post ++ Obs.closed c :: pre) : Convicted o.threshold pre c.peer :=
  (invL_reach h).closed post c pre hl

/-- C99 fails: a peer is disconnected though the only error charged to it weighs nothing (one of this node's own chain
service), since its neighbour has brought the score of the address to the limit. This holds for every decay law that leaves
a score as it is when no time passes. -/
theorem C99_own_fault_refuted (d : Spec.Decay) (hd : ∀ s, d 0 s = s) :
    ∃ ls s c, Enforce.run d .default (Enforce.init 0) ls = some s ∧ Obs.closed c ∈ s.log ∧
      ∀ c' e a sc t, Obs.charged c' e a sc t ∈ s.log → c'.peer = c.peer → getScoreForError .default e = 0 := by
  have hd' : d = fun t s => if t = 0 then s else d t s := by
    funext t s
    split
    · rename_i h; rw [h, hd]
    · rfl
  rw [hd']
  refine ⟨banA ++ [.report ⟨pB, home', 1⟩ (.sentinel .localRPC), .handle 0, .close 0], _, ⟨pB, home', 1⟩, rfl, .head _, ?_⟩
  intro c' e a sc t h hp
  change _ ∈ [Obs.closed ⟨pB, home', 1⟩, .charged ⟨pB, home', 1⟩ (.sentinel .localRPC) home' 200000 0,
    .reported ⟨pB, home', 1⟩ (.sentinel .localRPC), .closed ⟨pA, home, 0⟩, .charged ⟨pA, home, 0⟩ bomb home 200000 0,
    .reported ⟨pA, home, 0⟩ bomb, .admitted ⟨pB, home', 1⟩ 0, .allowed ⟨pB, home', 1⟩ 0, .admitted ⟨pA, home, 0⟩ 0,
    .allowed ⟨pA, home, 0⟩ 0] at h
  simp only [List.mem_cons, reduceCtorEq, Obs.charged.injEq, List.not_mem_nil, or_false, false_or] at h
  rcases h with ⟨_, rfl, _⟩ | ⟨rfl, _⟩
  · decide
  · exact absurd hp (by decide)

/-! ## C100: whether a report counts -/

/-- Nothing tracks peer `p`, and no connection of it is about to be tracked. -/
private def Untracked (p : Bytes) (s : Enforce.State) : Prop :=
  s.cm.peers.get p = none ∧ ∀ c, CM.Event.connected c ∈ s.notes → c.peer ≠ p

/-- C100 fails for good: while a peer is not tracked and makes no new connection, all its errors are ignored, whatever the
execution. -/
theorem C100_immune_refuted (s s' : Enforce.State) (ls : List Enforce.Label) (hr : Enforce.run d o s ls = some s')
    (p : Bytes) (h1 : s.cm.peers.get p = none) (h2 : ∀ c, CM.Event.connected c ∈ s.notes → c.peer ≠ p) :
    ∃ new, s'.log = new ++ s.log ∧
      ((∀ c t, Obs.admitted c t ∈ new → c.peer ≠ p) → ∀ c e a sc t, Obs.charged c e a sc t ∈ new → c.peer ≠ p) := by
  suffices hk : ∃ new, s'.log = new ++ s.log ∧ ((∀ c t, Obs.admitted c t ∈ new → c.peer ≠ p) →
      Untracked p s' ∧ ∀ c e a sc t, Obs.charged c e a sc t ∈ new → c.peer ≠ p) by
    obtain ⟨new, hl, h⟩ := hk
    exact ⟨new, hl, fun ha => (h ha).2⟩
  refine run_ind (P := fun x => ∃ new, x.log = new ++ s.log ∧ ((∀ c t, Obs.admitted c t ∈ new → c.peer ≠ p) →
      Untracked p x ∧ ∀ c e a sc t, Obs.charged c e a sc t ∈ new → c.peer ≠ p)) (fun x l x' hx hst => ?_) ls s s'
    ⟨[], rfl, fun _ => ⟨⟨h1, h2⟩, by simp⟩⟩ hr
  obtain ⟨new, hl, hx⟩ := hx
  have ext : ∀ (y : Enforce.State) (more : List Obs), y.log = more ++ x.log →
      (Untracked p x → (∀ c t, Obs.admitted c t ∈ more → c.peer ≠ p) →
        Untracked p y ∧ ∀ c e a sc t, Obs.charged c e a sc t ∈ more → c.peer ≠ p) →
      ∃ new, y.log = new ++ s.log ∧ ((∀ c t, Obs.admitted c t ∈ new → c.peer ≠ p) →
        Untracked p y ∧ ∀ c e a sc t, Obs.charged c e a sc t ∈ new → c.peer ≠ p) := by
    intro y more hy hk
    refine ⟨more ++ new, by rw [hy, hl, List.append_assoc], fun ha => ?_⟩
    obtain ⟨g1, g2⟩ := hx fun c t h => ha c t (List.mem_append_right _ h)
    obtain ⟨g3, g4⟩ := hk g1 fun c t h => ha c t (List.mem_append_left _ h)
    refine ⟨g3, fun c e a sc t h => ?_⟩
    rcases List.mem_append.1 h with h | h
    · exact g4 c e a sc t h
    · exact g2 c e a sc t h
  cases tr_of_step x x' l hst with
  | knockIn => exact ext _ [] rfl fun h _ => ⟨h, by simp⟩
  | knockOut => exact ext _ [_] rfl fun h _ => ⟨h, by simp⟩
  | secureIn => exact ext _ [_] rfl fun h _ => ⟨h, by simp⟩
  | establish i c hc =>
    refine ext _ [.admitted c x.now] rfl fun h ha => ⟨⟨h.1, fun c' hc' => ?_⟩, by simp⟩
    rcases List.mem_append.1 hc' with h' | h'
    · exact h.2 c' h'
    · cases List.mem_singleton.1 h'; exact ha c x.now (List.mem_cons_self ..)
  | secureOut => exact ext _ [_] rfl fun h _ => ⟨h, by simp⟩
  | note i e he hearly =>
    refine ext _ [] rfl fun h _ => ⟨⟨?_, fun c hc => h.2 c (List.mem_of_mem_eraseIdx hc)⟩, by simp⟩
    have hmem := List.mem_of_getElem? he
    dsimp only
    cases e with
    | connected c =>
      have hne := h.2 c hmem
      simp only [CM.step, CM.handleConnected]
      split
      · exact h.1
      split
      · exact h.1
      · rw [GoMap.get_set, if_neg (fun h => hne h.symm)]; exact h.1
    | disconnected c =>
      simp only [CM.step, CM.handleDisconnected]
      split
      · exact h.1
      split
      · rw [GoMap.get_del]; split
        · rfl
        · exact h.1
      · exact h.1
    | shutdown =>
      simp only [CM.step, CM.shutdown]
      split
      · exact h.1
      · rfl
  | report => exact ext _ [_] rfl fun h _ => ⟨h, by simp⟩
  | charge i c e a hc ha q hq =>
    refine ext _ [_] rfl fun h _ => ⟨h, fun c' e' a' sc t h' hp => ?_⟩
    cases List.mem_singleton.1 h'
    simp only [CM.getPeerAddress, hp, h.1] at ha
    cases ha
  | ignore => exact ext _ [_] rfl fun h _ => ⟨h, by simp⟩
  | close i q hq =>
    refine ext _ _ rfl fun h _ => ⟨⟨h.1, fun c hc => ?_⟩, by simp⟩
    rcases List.mem_append.1 hc with hc | hc
    · exact h.2 c hc
    · obtain ⟨y, _, hy⟩ := List.mem_map.1 hc; cases hy
  | hangUp c hc =>
    refine ext _ [_] rfl fun h _ => ⟨⟨h.1, fun c' hc' => ?_⟩, by simp⟩
    rcases List.mem_append.1 hc' with hc' | hc'
    · exact h.2 c' hc'
    · cases List.mem_singleton.1 hc'
  | query => exact ext _ [] rfl fun h _ => ⟨h, by simp⟩
  | tick => exact ext _ [] rfl fun h _ => ⟨h, by simp⟩

/-- C100: such a state is reached by making two connections and ending one; the other one goes on. -/
theorem C100_immunity_refuted (d : Spec.Decay) (o : ErrOpts) (t : Time) :
    ∃ ls s, Enforce.run d o (Enforce.init t) ls = some s ∧ s.errs = [] ∧ s.closing = [] ∧ s.notes = [] ∧
      ∃ c ∈ s.live, s.cm.peers.get c.peer = none :=
  ⟨[.knock pA home, .secure 0, .establish 0, .note 0, .knock pA home', .secure 0, .establish 0, .note 0, .hangUp ⟨pA, home, 0⟩, .note 0], _, rfl, rfl,
    rfl, rfl, ⟨pA, home', 1⟩, List.mem_cons_self .., rfl⟩

/-- C100. A report taken up while its peer is tracked is charged, to the tracked connection's address. -/
theorem C100_tracked_partial (s s' : Enforce.State) (i : Nat) (c : Conn) (e : Err) (x : CM.PeerCtx)
    (hi : s.errs[i]? = some (c, e)) (hx : s.cm.peers.get c.peer = some x)
    (hs : Enforce.step d o s (.handle i) = some s') :
    ∃ sc, s'.log = .charged c e x.conn.addr sc s.now :: s.log ∧ (o.threshold ≤ sc → c.peer ∈ s'.closing) := by
  cases tr_of_step s s' _ hs with
  | charge i c' e' a hc ha p hp =>
    rw [hi] at hc
    cases hc
    have : a = x.conn.addr := by
      simp only [CM.getPeerAddress, hx, Option.map_some, Option.some.injEq] at ha
      exact ha.symm
    subst this
    refine ⟨_, rfl, fun hle => ?_⟩
    rw [score_entered] at hle
    rw [ErrHandler.reaction_perr, if_pos hle] at hp
    injection hp with hp
    subst hp
    simp
  | ignore i c' e' hc ha =>
    rw [hi] at hc
    cases hc
    simp [CM.getPeerAddress, hx] at ha

/-- A peer that got past the first question before its neighbour was banned: the second question is asked in a state to
which `C97_kept_out_partial` applies, and it is refused. -/
private def late : List Enforce.Label :=
  [.knock pA home, .secure 0, .establish 0, .note 0, .knock pB home', .report ⟨pA, home, 0⟩ bomb, .handle 0]

example (d : Spec.Decay) : ∃ s, Enforce.run d .default (Enforce.init 0) late = some s ∧
    Obs.charged ⟨pA, home, 0⟩ bomb home 200000 0 ∈ s.log ∧ s.closing = [pA] ∧ s.knocking = [⟨pB, home', 1⟩] ∧
    (entriesFor .default home.ip s.hist).length = 4 ∧ totalCharged (entriesFor .default home.ip s.hist) = 200000 ∧
    ∃ s', Enforce.step d .default s (.secure 0) = some s' := by
  refine ⟨_, rfl, .head _, rfl, rfl, rfl, rfl, ?_⟩
  simp only [Enforce.step]
  split
  · rename_i h; cases h
  · split <;> exact ⟨_, rfl⟩

example : ((Enforce.run (fun _ s => s) .default (Enforce.init 0) (late ++ [.secure 0])).map fun s =>
    (s.live.length, s.log.length, s.log.head?)) = some (1, 5, some (.refused ⟨pB, home', 1⟩ 0)) := by decide +kernel

/-! ## C101: enforcement happens -/

private theorem mem_eraseIdx_of_ne {α : Type} {l : List α} {i : Nat} {x y : α} (hx : x ∈ l) (hi : l[i]? = some y) (hne : y ≠ x) :
    x ∈ l.eraseIdx i := by
  rw [List.mem_eraseIdx_iff_getElem?]
  obtain ⟨j, hj⟩ := List.mem_iff_getElem?.1 hx
  exact ⟨j, fun h => hne (by rw [h] at hj; rw [hj] at hi; exact (Option.some.inj hi).symm), hj⟩

private theorem stays {P : Nat → Prop} {n : Nat} (h0 : P n) (hs : ∀ m, n ≤ m → P m → P (m + 1)) : ∀ m, n ≤ m → P m := by
  intro m hm
  induction m, hm using Nat.le_induction with
  | base => exact h0
  | succ m hm ih => exact hs m hm ih

/-- C101. Every report is dealt with in the end, if the error handler does not neglect any. -/
theorem C101_dealt_with (σ : Nat → Enforce.State) (ev : Nat → Enforce.Label) (hx : Exec d o σ ev) (hf : FairReports σ ev)
    (n : Nat) (c : Conn) (e : Err) (hm : (c, e) ∈ (σ n).errs) :
    ∃ m, n ≤ m ∧ ∃ x, Dealt c e x ∧ (σ (m + 1)).log = x :: (σ m).log := by
  obtain ⟨m, hnm, ht⟩ : ∃ m, n ≤ m ∧ TakesUp c e (σ m) (ev m) := by
    by_contra hno
    refine hno (hf c e n (stays hm fun m hm hin => ?_))
    have hnt : ¬ TakesUp c e (σ m) (ev m) := fun h => hno ⟨m, hm, h⟩
    have hst := hx m
    generalize ev m = l at hst hnt
    generalize hs' : σ (m + 1) = s' at hst
    cases tr_of_step _ _ _ hst with
    | charge i c' e' a hc _ _ _ => exact mem_eraseIdx_of_ne hin hc fun h => hnt (by rw [h] at hc; exact hc)
    | ignore i c' e' hc _ => exact mem_eraseIdx_of_ne hin hc fun h => hnt (by rw [h] at hc; exact hc)
    | report => exact List.mem_append_left _ hin
    | _ => exact hin
  refine ⟨m, hnm, ?_⟩
  have hst := hx m
  generalize ev m = l at hst ht
  generalize hs' : σ (m + 1) = s' at hst
  cases tr_of_step _ _ _ hst with
  | charge i c' e' a hc _ _ _ =>
    have ht' : (σ m).errs[i]? = some (c, e) := ht
    rw [ht'] at hc
    cases hc
    exact ⟨_, Or.inr ⟨_, _, _, rfl⟩, rfl⟩
  | ignore i c' e' hc _ =>
    have ht' : (σ m).errs[i]? = some (c, e) := ht
    rw [ht'] at hc
    cases hc
    exact ⟨_, Or.inl rfl, rfl⟩
  | _ => exact ht.elim

/-- C101. A peer whose error is charged and finds or brings the score of the address at the limit is disconnected in the
end: there is a later state in which it has no connection. -/
theorem C101_disconnected (σ : Nat → Enforce.State) (ev : Nat → Enforce.Label) (hx : Exec d o σ ev) (hf : FairCloses σ ev)
    (n : Nat) (c : Conn) (e : Err) (a : MAddr) (sc : UInt64) (t : Time)
    (hc : (σ (n + 1)).log = .charged c e a sc t :: (σ n).log) (hsc : o.threshold ≤ sc) :
    ∃ m, n < m ∧ ∀ c' ∈ (σ m).live, c'.peer ≠ c.peer := by
  have hin : c.peer ∈ (σ (n + 1)).closing := by
    have hst := hx n
    generalize ev n = l at hst
    generalize hs' : σ (n + 1) = s' at hst hc ⊢
    cases tr_of_step _ _ _ hst with
    | charge i c' e' a' hi ha p hp =>
      simp only [List.cons.injEq, Obs.charged.injEq, and_true] at hc
      obtain ⟨rfl, rfl, rfl, rfl, _⟩ := hc
      rw [score_entered] at hsc
      rw [ErrHandler.reaction_perr, if_pos hsc] at hp
      injection hp with hp
      subst hp
      simp
    | close i q hq =>
      exfalso
      have hm : Obs.charged c e a sc t ∈ (((σ n).live.filter fun c => c.peer == q).map Obs.closed).reverse := by
        cases hr : (((σ n).live.filter fun c => c.peer == q).map Obs.closed).reverse with
        | nil => simp only [hr, List.nil_append] at hc; have := congrArg List.length hc; simp at this
        | cons y l => simp only [hr, List.cons_append, List.cons.injEq] at hc; rw [hc.1]; simp
      simp at hm
    | _ => simp at hc
  obtain ⟨m, hnm, ht⟩ : ∃ m, n + 1 ≤ m ∧ CarriesOut c.peer (σ m) (ev m) := by
    by_contra hno
    refine hno (hf c.peer (n + 1) (stays hin fun m hm hin => ?_))
    have hnt : ¬ CarriesOut c.peer (σ m) (ev m) := fun h => hno ⟨m, hm, h⟩
    have hst := hx m
    generalize ev m = l at hst hnt
    generalize hs' : σ (m + 1) = s' at hst
    cases tr_of_step _ _ _ hst with
    | charge i c' e' a hc _ _ _ => exact List.mem_append_left _ hin
    | close i q hq => exact mem_eraseIdx_of_ne hin hq fun h => hnt (by rw [h] at hq; exact hq)
    | _ => exact hin
  refine ⟨m + 1, by omega, ?_⟩
  have hst := hx m
  generalize ev m = l at hst ht
  generalize hs' : σ (m + 1) = s' at hst
  cases tr_of_step _ _ _ hst with
  | close i q hq =>
    have ht' : (σ m).closing[i]? = some c.peer := ht
    rw [ht'] at hq
    cases hq
    intro c' hc'
    simpa using (List.mem_filter.1 hc').2
  | _ => exact ht.elim

/-! An execution that meets the hypotheses: the ban of A, after which time passes. -/

private def thenTicks (d : Spec.Decay) (s : Enforce.State) : List Enforce.Label → Nat → Enforce.State
  | _, 0 => s
  | [], n + 1 => { s with now := s.now + (n + 1 : Nat) }
  | l :: ls, n + 1 => thenTicks d ((Enforce.step d .default s l).getD s) ls n

private def evTicks (ls : List Enforce.Label) (n : Nat) : Enforce.Label := ls[n]?.getD (.tick 1)

private theorem ticks_exec (d : Spec.Decay) (ls : List Enforce.Label) : ∀ s s', Enforce.run d .default s ls = some s' →
    Exec d .default (thenTicks d s ls) (evTicks ls) := by
  induction ls with
  | nil =>
    intro s s' _ n
    have h : ∀ n, thenTicks d s [] n = { s with now := s.now + (n : Nat) } := by
      intro n
      cases n with
      | zero => simp [thenTicks]
      | succ n => rfl
    rw [h, h]
    simp [evTicks, Enforce.step, Int.add_assoc]
  | cons l ls ih =>
    intro s s' hr n
    simp only [Enforce.run] at hr
    split at hr
    · rename_i s1 h1
      cases n with
      | zero =>
        show Enforce.step d .default s l = some (thenTicks d ((Enforce.step d .default s l).getD s) ls 0)
        rw [h1]; cases ls <;> rfl
      | succ n =>
        have := ih s1 s' hr n
        show Enforce.step d .default (thenTicks d ((Enforce.step d .default s l).getD s) ls n) (evTicks ls n) =
          some (thenTicks d ((Enforce.step d .default s l).getD s) ls (n + 1))
        rw [h1]; exact this
    · cases hr

private theorem ticks_end (d : Spec.Decay) (ls : List Enforce.Label) : ∀ s s', Enforce.run d .default s ls = some s' →
    ∀ n, thenTicks d s ls (ls.length + n) = { s' with now := s'.now + (n : Nat) } := by
  induction ls with
  | nil =>
    intro s s' hr n
    cases hr
    cases n with
    | zero => simp [thenTicks]
    | succ n => simp [thenTicks]
  | cons l ls ih =>
    intro s s' hr n
    simp only [Enforce.run] at hr
    split at hr
    · rename_i s1 h1
      rw [show (l :: ls).length + n = (ls.length + n) + 1 from by simp only [List.length_cons]; omega]
      show thenTicks d ((Enforce.step d .default s l).getD s) ls (ls.length + n) = _
      rw [h1]
      exact ih s1 s' hr n
    · cases hr

private theorem ticks_prefix (d : Spec.Decay) (ls ls' : List Enforce.Label) : ∀ s s', Enforce.run d .default s ls = some s' →
    thenTicks d s (ls ++ ls') ls.length = s' := by
  induction ls with
  | nil => intro s s' hr; cases hr; cases ls' <;> rfl
  | cons l ls ih =>
    intro s s' hr
    simp only [Enforce.run] at hr
    split at hr
    · rename_i s1 h1
      show thenTicks d ((Enforce.step d .default s l).getD s) (ls ++ ls') ls.length = _
      rw [h1]
      exact ih s1 s' hr
    · cases hr

example (d : Spec.Decay) : ∃ σ ev, σ 0 = Enforce.init 0 ∧ Exec d .default σ ev ∧ FairReports σ ev ∧ FairCloses σ ev ∧
    (∃ n c e, (c, e) ∈ (σ n).errs) ∧ (∃ n c e, (σ (n + 1)).log = .reported c e :: (σ n).log) ∧
    ∃ n c e a sc t, (σ (n + 1)).log = .charged c e a sc t :: (σ n).log ∧ ErrOpts.default.threshold ≤ sc ∧
      ∃ c' ∈ (σ n).live, c'.peer = c.peer := by
  obtain ⟨s', hr, h1, h2⟩ : ∃ s', Enforce.run d .default (Enforce.init 0) banA = some s' ∧ s'.errs = [] ∧ s'.closing = [] :=
    ⟨_, rfl, rfl, rfl⟩
  have hend := ticks_end d banA _ _ hr
  obtain ⟨s7, s8, hr7, hr8, h3, h4, h5⟩ : ∃ s7 s8, Enforce.run d .default (Enforce.init 0) (banA.take 9) = some s7 ∧
      Enforce.run d .default (Enforce.init 0) (banA.take 10) = some s8 ∧ (⟨pA, home, 0⟩, bomb) ∈ s7.errs ∧
      s8.log = .charged ⟨pA, home, 0⟩ bomb home 200000 0 :: s7.log ∧ ⟨pA, home, 0⟩ ∈ s7.live :=
    ⟨_, _, rfl, rfl, .head _, rfl, .head _⟩
  obtain ⟨s6, s7', hr6, hr7', h6⟩ : ∃ s6 s7, Enforce.run d .default (Enforce.init 0) (banA.take 8) = some s6 ∧
      Enforce.run d .default (Enforce.init 0) (banA.take 9) = some s7 ∧
      s7.log = .reported ⟨pA, home, 0⟩ bomb :: s6.log := ⟨_, _, rfl, rfl, rfl⟩
  have e6 : thenTicks d (Enforce.init 0) banA 8 = s6 := ticks_prefix d (banA.take 8) (banA.drop 8) _ _ hr6
  have e7 : thenTicks d (Enforce.init 0) banA (8 + 1) = s7' := ticks_prefix d (banA.take 9) (banA.drop 9) _ _ hr7'
  have h7 : thenTicks d (Enforce.init 0) banA 9 = s7 := ticks_prefix d (banA.take 9) (banA.drop 9) _ _ hr7
  have h8 : thenTicks d (Enforce.init 0) banA (9 + 1) = s8 := ticks_prefix d (banA.take 10) (banA.drop 8) _ _ hr8
  refine ⟨thenTicks d (Enforce.init 0) banA, evTicks banA, rfl, ticks_exec d banA _ _ hr, ?_, ?_,
    ⟨9, ⟨pA, home, 0⟩, bomb, ?_⟩, ⟨8, ⟨pA, home, 0⟩, bomb, by rw [e6, e7]; exact h6⟩, 9, ⟨pA, home, 0⟩, bomb, home, 200000, 0, ?_, by decide, ⟨pA, home, 0⟩, ?_, rfl⟩
  · intro c e n h
    have := h (banA.length + n) (by omega)
    rw [hend n] at this
    simp [h1] at this
  · intro p n h
    have := h (banA.length + n) (by omega)
    rw [hend n] at this
    simp [h2] at this
  · rw [h7]; exact h3
  · rw [h7, h8]; exact h4
  · rw [h7]; exact h5

end KP2P

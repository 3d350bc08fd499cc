import Verif.Model.Enforce
import Verif.Proof.ErrorHandler
/-!
# Invariants of the enforcement model
-/

namespace KP2P
namespace Enforce
open KP2P.ErrHandler (Event)
open KP2P.Spec

variable {d : Spec.Decay} {o : ErrOpts}

theorem run_ind {P : State → Prop} (hstep : ∀ s l s', P s → step d o s l = some s' → P s') :
    ∀ (ls : List Label) (s s' : State), P s → run d o s ls = some s' → P s' := by
  intro ls
  induction ls with
  | nil => intro s s' h hr; cases hr; exact h
  | cons l ls ih =>
    intro s s' h hr
    simp only [run] at hr
    split at hr
    · rename_i s1 h1; exact ih s1 s' (hstep s l s1 h h1) hr
    · cases hr

theorem run_append (ls ls' : List Label) (s : State) : run d o s (ls ++ ls') = (run d o s ls).bind fun t => run d o t ls' := by
  induction ls generalizing s with
  | nil => rfl
  | cons l ls ih =>
    simp only [List.cons_append, run]
    cases step d o s l with
    | none => rfl
    | some t => exact ih t

theorem reachable_run {s s' : State} (h : Reachable d o s) (ls : List Label) (hr : run d o s ls = some s') :
    Reachable d o s' := by
  obtain ⟨t, l0, h0⟩ := h
  exact ⟨t, l0 ++ ls, by rw [run_append, h0]; exact hr⟩

theorem eh_run_append (h : ErrHandler) (a b : List (Int × Event)) :
    h.run d o (a ++ b) = (h.run d o a).run d o b := by
  induction a generalizing h with
  | nil => rfl
  | cons x a ih => exact ih _

theorem scoreOf_bal (h : ErrHandler) (a : MAddr) : scoreOf h a = ((h.bal a.ip).map Prod.snd).getD 0 := by
  simp only [scoreOf, ErrHandler.bal]
  cases h.scores.get a.ip <;> rfl

/-- The steps, case by case. -/
inductive Tr (d : Spec.Decay) (o : ErrOpts) (s : State) : Label → State → Prop where
  | knockIn (p : Bytes) (a : MAddr) (h : (s.eh.handle d o s.now (.canConnect a)).2 = .allowed true) :
    Tr d o s (.knock p a) { s with
      next := s.next + 1, eh := (s.eh.handle d o s.now (.canConnect a)).1
      hist := s.hist ++ [(s.now, .canConnect a)], knocking := s.knocking ++ [⟨p, a, s.next⟩] }
  | knockOut (p : Bytes) (a : MAddr) (h : (s.eh.handle d o s.now (.canConnect a)).2 ≠ .allowed true) :
    Tr d o s (.knock p a) { s with
      next := s.next + 1, eh := (s.eh.handle d o s.now (.canConnect a)).1
      hist := s.hist ++ [(s.now, .canConnect a)], log := .refused ⟨p, a, s.next⟩ s.now :: s.log }
  | secureIn (i : Nat) (c : Conn) (hi : s.knocking[i]? = some c)
      (h : (s.eh.handle d o s.now (.canConnect c.addr)).2 = .allowed true) :
    Tr d o s (.secure i) { s with
      knocking := s.knocking.eraseIdx i, eh := (s.eh.handle d o s.now (.canConnect c.addr)).1
      hist := s.hist ++ [(s.now, .canConnect c.addr)], upgrading := s.upgrading ++ [c], log := .allowed c s.now :: s.log }
  | secureOut (i : Nat) (c : Conn) (hi : s.knocking[i]? = some c)
      (h : (s.eh.handle d o s.now (.canConnect c.addr)).2 ≠ .allowed true) :
    Tr d o s (.secure i) { s with
      knocking := s.knocking.eraseIdx i, eh := (s.eh.handle d o s.now (.canConnect c.addr)).1
      hist := s.hist ++ [(s.now, .canConnect c.addr)], log := .refused c s.now :: s.log }
  | establish (i : Nat) (c : Conn) (hi : s.upgrading[i]? = some c) :
    Tr d o s (.establish i) { s with
      upgrading := s.upgrading.eraseIdx i, live := s.live ++ [c], notes := s.notes ++ [.connected c]
      log := .admitted c s.now :: s.log }
  | note (i : Nat) (e : CM.Event) (hi : s.notes[i]? = some e) (he : early s e = false) :
    Tr d o s (.note i) { s with notes := s.notes.eraseIdx i, cm := CM.step s.cm e }
  | report (c : Conn) (e : Err) (hc : ∃ t, Obs.admitted c t ∈ s.log) :
    Tr d o s (.report c e) { s with errs := s.errs ++ [(c, e)], log := .reported c e :: s.log }
  | charge (i : Nat) (c : Conn) (e : Err) (a : MAddr) (hi : s.errs[i]? = some (c, e))
      (ha : CM.getPeerAddress s.cm c.peer = some a) (p : Option Bytes)
      (hp : (s.eh.handle d o s.now (.perr c.peer (some a) e)).2 = .disconnect p) :
    Tr d o s (.handle i) { s with
      errs := s.errs.eraseIdx i, eh := (s.eh.handle d o s.now (.perr c.peer (some a) e)).1
      hist := s.hist ++ [(s.now, .perr c.peer (some a) e)], closing := s.closing ++ p.toList
      log := .charged c e a (scoreOf (s.eh.handle d o s.now (.perr c.peer (some a) e)).1 a) s.now :: s.log }
  | ignore (i : Nat) (c : Conn) (e : Err) (hi : s.errs[i]? = some (c, e)) (ha : CM.getPeerAddress s.cm c.peer = none) :
    Tr d o s (.handle i) { s with
      errs := s.errs.eraseIdx i, hist := s.hist ++ [(s.now, .perr c.peer none e)], log := .ignored c e :: s.log }
  | close (i : Nat) (p : Bytes) (hi : s.closing[i]? = some p) :
    Tr d o s (.close i) { s with
      closing := s.closing.eraseIdx i
      live := s.live.filter fun c => !(c.peer == p)
      notes := s.notes ++ (s.live.filter fun c => c.peer == p).map CM.Event.disconnected
      log := ((s.live.filter fun c => c.peer == p).map Obs.closed).reverse ++ s.log }
  | hangUp (c : Conn) (hc : c ∈ s.live) :
    Tr d o s (.hangUp c) { s with
      live := s.live.erase c, notes := s.notes ++ [.disconnected c], log := .gone c :: s.log }
  | query (a : MAddr) :
    Tr d o s (.query a) { s with
      eh := (s.eh.handle d o s.now (.getScore a)).1, hist := s.hist ++ [(s.now, .getScore a)] }
  | tick (n : Nat) : Tr d o s (.tick n) { s with now := s.now + n }

theorem met_iff {log : List Obs} {c : Conn} : met log c = true ↔ ∃ t, Obs.admitted c t ∈ log := by
  simp only [met, List.any_eq_true]
  constructor
  · rintro ⟨x, hx, h⟩
    cases x with
    | admitted c' t => exact ⟨t, by rw [← of_decide_eq_true h]; exact hx⟩
    | _ => cases h
  · rintro ⟨t, h⟩
    exact ⟨_, h, by simp⟩

theorem tr_of_step (s s' : State) (l : Label) (hs : step d o s l = some s') : Tr d o s l s' := by
  cases l with
  | knock p a =>
    simp only [step, tell] at hs
    split at hs
    · rename_i h; cases hs; exact .knockIn p a h
    · rename_i h; cases hs; exact .knockOut p a h
  | secure i =>
    simp only [step, tell] at hs
    split at hs
    · cases hs
    rename_i c hi
    split at hs
    · rename_i h; cases hs; exact .secureIn i c hi h
    · rename_i h; cases hs; exact .secureOut i c hi h
  | establish i =>
    simp only [step] at hs
    split at hs
    · cases hs
    rename_i c hi
    cases hs
    exact .establish i c hi
  | note i =>
    simp only [step] at hs
    split at hs
    · cases hs
    rename_i e hi
    split at hs
    · cases hs
    · rename_i he
      cases hs
      exact .note i e hi (by simpa using he)
  | report c e =>
    simp only [step] at hs
    split at hs
    · rename_i hc; cases hs; exact .report c e (met_iff.1 hc)
    · cases hs
  | handle i =>
    simp only [step, tell] at hs
    split at hs
    · cases hs
    rename_i c e hi
    cases ha : CM.getPeerAddress s.cm c.peer with
    | none =>
      rw [ha] at hs
      cases hs
      exact .ignore i c e hi ha
    | some a =>
      rw [ha] at hs
      obtain ⟨p, hp⟩ : ∃ p, (s.eh.handle d o s.now (.perr c.peer (some a) e)).2 = .disconnect p := ⟨_, rfl⟩
      have key := Tr.charge (d := d) (o := o) (s := s) i c e a hi ha p hp
      rw [hp] at hs
      cases p with
      | none => cases hs; simpa using key
      | some q => cases hs; exact key
  | close i =>
    simp only [step] at hs
    split at hs
    · cases hs
    rename_i p hi
    cases hs
    exact .close i p hi
  | hangUp c =>
    simp only [step] at hs
    split at hs
    · rename_i hc; cases hs; exact .hangUp c hc
    · cases hs
  | query a => cases hs; exact .query a
  | tick n => cases hs; exact .tick n

/-- What a step does, apart from its kind. -/
structure Frame (d : Spec.Decay) (o : ErrOpts) (s s' : State) : Prop where
  clock : s.now ≤ s'.now
  tells : ∃ evs : List (Int × Event), (∀ x ∈ evs, x.1 = s.now) ∧ evs.length ≤ 1 ∧ s'.hist = s.hist ++ evs ∧
    s'.eh = s.eh.run d o evs
  grows : ∃ new, s'.log = new ++ s.log

theorem frame_step (s s' : State) (l : Label) (hs : step d o s l = some s') : Frame d o s s' := by
  have one : ∀ e : Event, ∃ evs : List (Int × Event), (∀ x ∈ evs, x.1 = s.now) ∧ evs.length ≤ 1 ∧
      s.hist ++ [(s.now, e)] = s.hist ++ evs ∧ (s.eh.handle d o s.now e).1 = s.eh.run d o evs :=
    fun e => ⟨[(s.now, e)], by simp, by simp, rfl, rfl⟩
  have zero : ∃ evs : List (Int × Event), (∀ x ∈ evs, x.1 = s.now) ∧ evs.length ≤ 1 ∧
      s.hist = s.hist ++ evs ∧ s.eh = s.eh.run d o evs := ⟨[], by simp, by simp, by simp, rfl⟩
  cases tr_of_step s s' l hs with
  | knockIn => exact ⟨le_refl _, one _, [], rfl⟩
  | knockOut => exact ⟨le_refl _, one _, [_], rfl⟩
  | secureIn => exact ⟨le_refl _, one _, [_], rfl⟩
  | secureOut => exact ⟨le_refl _, one _, [_], rfl⟩
  | establish => exact ⟨le_refl _, zero, [_], rfl⟩
  | note => exact ⟨le_refl _, zero, [], rfl⟩
  | report => exact ⟨le_refl _, zero, [_], rfl⟩
  | charge => exact ⟨le_refl _, one _, [_], rfl⟩
  | ignore => exact ⟨le_refl _, one (.perr _ none _), [_], rfl⟩
  | close => exact ⟨le_refl _, zero, _, rfl⟩
  | hangUp => exact ⟨le_refl _, zero, [_], rfl⟩
  | query => exact ⟨le_refl _, one _, [], rfl⟩
  | tick => exact ⟨by simp, zero, [], rfl⟩

/-- The score keeper is in the state its history says, and the history is in order. -/
structure InvH (d : Spec.Decay) (o : ErrOpts) (s : State) : Prop where
  eh : s.eh = ErrHandler.new.run d o s.hist
  sorted : (s.hist.map Prod.fst).Pairwise (· ≤ ·)
  past : ∀ x ∈ s.hist, x.1 ≤ s.now

theorem invH_step (s : State) (l : Label) (s' : State) (hi : InvH d o s) (hs : step d o s l = some s') : InvH d o s' := by
  obtain ⟨hc, ⟨evs, ht, hlen, hh, he⟩, _⟩ := frame_step s s' l hs
  refine ⟨by rw [he, hi.eh, hh, eh_run_append], ?_, ?_⟩
  · rw [hh, List.map_append, List.pairwise_append]
    refine ⟨hi.sorted, ?_, ?_⟩
    · match evs, hlen with
      | [], _ => exact List.Pairwise.nil
      | [x], _ => exact List.pairwise_singleton ..
    · intro a ha b hb
      obtain ⟨x, hx, rfl⟩ := List.mem_map.1 ha
      obtain ⟨y, hy, rfl⟩ := List.mem_map.1 hb
      rw [ht y hy]
      exact hi.past x hx
  · intro x hx
    rw [hh] at hx
    rcases List.mem_append.1 hx with hx | hx
    · exact le_trans (hi.past x hx) hc
    · rw [ht x hx]; exact hc

theorem invH_reach {s : State} (h : Reachable d o s) : InvH d o s := by
  obtain ⟨t, ls, hr⟩ := h
  exact run_ind invH_step ls (init t) s ⟨rfl, List.Pairwise.nil, by simp [init]⟩ hr

theorem frame_run (ls : List Label) (s s' : State) (hr : run d o s ls = some s') :
    s.now ≤ s'.now ∧ (∃ evs, s'.hist = s.hist ++ evs) ∧ ∃ new, s'.log = new ++ s.log := by
  refine run_ind (P := fun x => s.now ≤ x.now ∧ (∃ evs, x.hist = s.hist ++ evs) ∧ ∃ new, x.log = new ++ s.log)
    (fun x l x' ⟨h1, ⟨e1, h2⟩, n1, h3⟩ hs => ?_) ls s s' ⟨le_refl _, ⟨[], by simp⟩, [], rfl⟩ hr
  obtain ⟨hc, ⟨evs, _, _, hh, _⟩, new, hl⟩ := frame_step x x' l hs
  exact ⟨le_trans h1 hc, ⟨e1 ++ evs, by rw [hh, h2, List.append_assoc]⟩, new ++ n1, by rw [hl, h3, List.append_assoc]⟩

/-- However many charges and questions there are, each costs at most one point against the ideal decay, as long as no sum
exceeds 64 bits. -/
theorem entries_lower {h : Int} (hh : 0 < h) (es : List (Int × Entry)) (t0 : Int) (s0 : UInt64)
    (ho : (t0 :: es.map Prod.fst).Pairwise (· ≤ ·)) (hsum : s0.toNat + totalCharged es < 2 ^ 64) :
    ∃ s, balanceFrom (realDecay h) (some (t0, s0)) es = some ((es.map Prod.fst).getLastD t0, s) ∧
      (s0.toNat : ℝ) * factor h ((es.map Prod.fst).getLastD t0 - t0) - es.length ≤ s.toNat := by
  induction es generalizing t0 s0 with
  | nil => exact ⟨s0, rfl, by simp [factor]⟩
  | cons x es ih =>
    obtain ⟨t, x⟩ := x
    simp only [List.map_cons] at ho
    have hle : t0 ≤ t := (List.pairwise_cons.1 ho).1 t (by simp)
    have ho' := (List.pairwise_cons.1 ho).2
    have hlast : t ≤ (es.map Prod.fst).getLastD t := by
      rcases List.eq_nil_or_concat (es.map Prod.fst) with h | ⟨l, y, h⟩
      · rw [h]; simp
      · rw [h]
        simp only [List.concat_eq_append, List.getLastD_concat]
        exact (List.pairwise_cons.1 ho').1 y (by rw [h]; simp)
    have hdec := realDecay_toNat hh (by omega : 0 ≤ t - t0) s0
    have hgt : (s0.toNat : ℝ) * factor h (t - t0) - 1 < (realDecay h (t - t0) s0).toNat := by
      rw [hdec]
      have := Nat.lt_floor_add_one ((s0.toNat : ℝ) * factor h (t - t0))
      linarith
    have hni := UInt64.le_iff_toNat_le.1 (realDecay_nonIncreasing hh (t - t0) (by omega) s0)
    obtain ⟨s1, hpost, hs1, hs1'⟩ : ∃ s1, Balance.post (realDecay h) (some (t0, s0)) t x = some (t, s1) ∧
        (realDecay h (t - t0) s0).toNat ≤ s1.toNat ∧ s1.toNat + totalCharged es < 2 ^ 64 := by
      cases x with
      | charge n =>
        simp only [totalCharged] at hsum
        refine ⟨realDecay h (t - t0) s0 + n, rfl, ?_, ?_⟩ <;>
          rw [UInt64.toNat_add, Nat.mod_eq_of_lt (by omega)] <;> omega
      | read =>
        simp only [totalCharged] at hsum
        exact ⟨realDecay h (t - t0) s0, rfl, le_refl _, by omega⟩
    obtain ⟨s, h1, h2⟩ := ih t s1 ho' hs1'
    refine ⟨s, ?_, ?_⟩
    · simp only [List.map_cons, List.getLastD_cons, balanceFrom, hpost]
      exact h1
    · simp only [List.map_cons, List.getLastD_cons, List.length_cons]
      have hf : factor h ((es.map Prod.fst).getLastD t - t0) =
          factor h (t - t0) * factor h ((es.map Prod.fst).getLastD t - t) := by
        rw [← factor_add]; congr 1; omega
      have hp := factor_pos h ((es.map Prod.fst).getLastD t - t)
      have hl1 := factor_le_one hh (by omega : 0 ≤ (es.map Prod.fst).getLastD t - t)
      have hs1r : ((realDecay h (t - t0) s0).toNat : ℝ) ≤ s1.toNat := by exact_mod_cast hs1
      rw [hf]
      push_cast
      nlinarith

end Enforce
end KP2P

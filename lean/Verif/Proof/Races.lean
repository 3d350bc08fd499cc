import Verif.Spec.Races
import Mathlib.Data.List.Induction
/-!
# Permissions, and why goroutines that keep to them do not race

Every unit of memory has three pieces. A piece is held by one goroutine, lock or message at a time, or is frozen: known to any
number of goroutines, held by none. `permits` says which pieces an operation needs, `upd` how it moves them.
-/

namespace KP2P.Races
open KP2P.Spec.Races

inductive Pc where
  | a | b | c
  deriving DecidableEq, Repr

abbrev Piece := Field × Pc

/-- How a field is protected. -/
inductive Cls where
  | plain | atomic | mixed | racy
  deriving DecidableEq

def cls : Field → Cls
  | .libValue | .recent _ => .atomic
  | .lib => .mixed
  | .gossipCancel | .addrProvider | .mgrAddrChan => .racy
  | _ => .plain

def pieces (f : Field) : List Piece := [(f, .a), (f, .b), (f, .c)]

/-- The piece that `freeze` freezes. -/
def fz (f : Field) : Piece := if cls f = .mixed then (f, .c) else (f, .a)

structure Res where
  own : List Piece
  know : List Piece
  opened : List Lock

def guarded : Lock → List Piece
  | .watchdog => pieces .tracker
  | .cache => pieces .cache
  | .enabled => [(.toggleEnabled, .b), (.toggleEnabled, .c)]
  | .head => pieces .headTime
  | .topic b => pieces (.topicState b)

def consts : List Piece :=
  [fz .nodeHandler, fz .nodeParts, fz .libValue, fz .handlerConst, fz .lib, fz .appConst, fz (.topicConst false),
    fz (.topicConst true), fz (.recent false), fz (.recent true), fz .gossipConst, fz .mgrConst, fz .toggleConst]

def allLocks : List Lock := [.watchdog, .cache, .enabled, .head, .topic false, .topic true]

/-- What a goroutine is given when it is started. -/
def gift : Kind → Res
  | .main => ⟨[], [], []⟩
  | .gater => ⟨[], [fz .nodeHandler, fz .handlerConst], []⟩
  | .headTimer n => ⟨[], fz (.blob n) :: consts, allLocks⟩
  | .caster _ n => ⟨[], fz (.blob n) :: consts, allLocks⟩
  | .handler => ⟨pieces .errorScores, consts, allLocks⟩
  | .toggle => ⟨[(.toggleEnabled, .a)], consts, allLocks⟩
  | .mgrStart => ⟨pieces .connectedPeers, consts, allLocks⟩
  | .manager => ⟨pieces .connectedPeers, consts, allLocks⟩
  | .session s => ⟨pieces (.version s) ++ pieces (.isSynced s), fz (.sessConst s) :: consts, allLocks⟩
  | .rounds s => ⟨pieces (.isSynced s), fz (.sessConst s) :: consts, allLocks⟩
  | .appLoop => ⟨pieces .tables ++ [(.lib, .a), (.lib, .b)], consts, allLocks⟩
  | .tryer n => ⟨[], fz (.blob n) :: consts, allLocks⟩
  | _ => ⟨[], consts, allLocks⟩

/-- What a message carries. -/
def cargo (m : Msg) : List Piece × List Piece :=
  match m.chan with
  | .newBlock => (pieces (.entry m.n), [fz (.blob m.n)])
  | _ => ([], [fz (.blob m.n)])

def less (l r : List Piece) : List Piece := l.filter (fun p => decide (p ∉ r))

def upd (r : Res) : Op → Res
  | .new f => { r with own := pieces f ++ r.own }
  | .acc _ _ => r
  | .acq l => { r with own := guarded l ++ r.own }
  | .rel l => { r with own := less r.own (guarded l) }
  | .fork _ k => { r with own := less r.own (gift k).own }
  | .send m => { r with own := less r.own (cargo m).1 }
  | .recv m => { r with own := (cargo m).1 ++ r.own, know := (cargo m).2 ++ r.know }
  | .open_ l => { r with own := less r.own (guarded l), opened := l :: r.opened }
  | .freeze f => { r with own := less r.own [fz f], know := fz f :: r.know }

def Has (r : Res) (p : Piece) : Prop := p ∈ r.own ∨ p ∈ r.know

instance (r p) : Decidable (Has r p) := inferInstanceAs (Decidable (_ ∨ _))

def may (r : Res) (m : Mode) (f : Field) : Prop :=
  match cls f, m with
  | .plain, .rd | .plain, .ald | .mixed, .rd => Has r (f, .a) ∨ Has r (f, .b)
  | .plain, .wr | .plain, .ast | .mixed, .ast => (f, .a) ∈ r.own ∧ (f, .b) ∈ r.own
  | .mixed, .wr => (f, .a) ∈ r.own ∧ (f, .b) ∈ r.own ∧ (f, .c) ∈ r.own
  | .mixed, .ald => Has r (f, .c)
  | .atomic, .rd | .atomic, .wr => (f, .a) ∈ r.own
  | .atomic, .ald | .atomic, .ast => Has r (f, .a)
  | .racy, _ => True

instance (r m f) : Decidable (may r m f) := by
  unfold may; split <;> infer_instance

def permits (r : Res) : Op → Prop
  | .new _ => True
  | .acc m f => may r m f
  | .acq l => l ∈ r.opened
  | .rel l => l ∈ r.opened ∧ guarded l ⊆ r.own
  | .fork _ k => (gift k).own ⊆ r.own ∧ (gift k).know ⊆ r.know ∧ (gift k).opened ⊆ r.opened
  | .send m => (cargo m).1 ⊆ r.own ∧ (cargo m).2 ⊆ r.know
  | .recv _ => True
  | .open_ l => guarded l ⊆ r.own
  | .freeze f => fz f ∈ r.own

instance (r op) : Decidable (permits r op) := by
  unfold permits; split <;> infer_instance

def Ok (r : Res) : List Op → Prop
  | [] => True
  | o :: os => permits r o ∧ Ok (upd r o) os

instance decOk : (r : Res) → (os : List Op) → Decidable (Ok r os)
  | _, [] => .isTrue trivial
  | r, o :: os => @instDecidableAnd _ _ _ (decOk (upd r o) os)

def after (r : Res) (os : List Op) : Res := os.foldl upd r

theorem ok_append {r : Res} {x y : List Op} : Ok r (x ++ y) ↔ Ok r x ∧ Ok (after r x) y := by
  induction x generalizing r with
  | nil => simp [Ok, after]
  | cons o os ih => simp only [List.cons_append, Ok, ih, after, List.foldl_cons, and_assoc]

theorem after_append (r : Res) (x y : List Op) : after r (x ++ y) = after (after r x) y := List.foldl_append

@[simp] theorem mem_less {p : Piece} {l r : List Piece} : p ∈ less l r ↔ p ∈ l ∧ p ∉ r := by simp [less]

/-! ### Traces -/

theorem hist_append (t : Tid) (x y : List Ev) : hist t (x ++ y) = hist t x ++ hist t y := List.filterMap_append

theorem hist_single (t : Tid) (e : Ev) : hist t [e] = if e.1 = t then [e.2] else [] := by
  by_cases h : e.1 = t <;> simp [hist, h]

theorem hist_nil {t : Tid} {tr : List Ev} (h : ∀ e ∈ tr, e.1 ≠ t) : hist t tr = [] := by
  simp only [hist, List.filterMap_eq_nil_iff]
  intro e he
  rw [if_neg (h e he)]

def Forked (t : Tid) (tr : List Ev) : Prop := ∃ x ∈ tr, ∃ k, x.2 = .fork t k

theorem kindOf_append_forked {t : Tid} {tr : List Ev} (h : Forked t tr) (s : List Ev) : kindOf t (tr ++ s) = kindOf t tr := by
  induction tr with
  | nil => obtain ⟨x, hx, _⟩ := h; cases hx
  | cons e tr ih =>
    obtain ⟨x, hx, k, hk⟩ := h
    rcases List.mem_cons.1 hx with rfl | hx
    · obtain ⟨a, o⟩ := x
      simp only at hk; subst hk
      simp [kindOf]
    · have := ih ⟨x, hx, k, hk⟩
      obtain ⟨a, o⟩ := e
      cases o <;> simp only [List.cons_append, kindOf, this]

theorem kindOf_append_not {t : Tid} {tr : List Ev} (h : ¬ Forked t tr) (s : List Ev) : kindOf t (tr ++ s) = kindOf t s := by
  induction tr with
  | nil => rfl
  | cons e tr ih =>
    have h1 : ¬ Forked t tr := fun ⟨x, hx, k, hk⟩ => h ⟨x, List.mem_cons_of_mem _ hx, k, hk⟩
    have := ih h1
    obtain ⟨a, o⟩ := e
    cases o <;> simp only [List.cons_append, kindOf, this]
    rename_i t' k
    rw [if_neg]
    rintro rfl
    exact h ⟨_, List.mem_cons_self .., k, rfl⟩

theorem kindOf_not {t : Tid} {tr : List Ev} (h : ¬ Forked t tr) : kindOf t tr = if t = 0 then some .main else none := by
  have := kindOf_append_not h []
  rwa [List.append_nil] at this

/-- What goroutine `t` has. -/
def R (t : Tid) (tr : List Ev) : Res :=
  match kindOf t tr with
  | none => ⟨[], [], []⟩
  | some k => after (gift k) (hist t tr)

/-- Executions up to scheduling, all of whose operations are permitted. -/
structure Fine (tr : List Ev) : Prop where
  sched : ∀ pre e post, tr = pre ++ e :: post → enabled pre e
  permits : ∀ pre e post, tr = pre ++ e :: post → permits (R e.1 pre) e.2

theorem Fine.init {tr : List Ev} {e : Ev} (h : Fine (tr ++ [e])) : Fine tr ∧ enabled tr e ∧ Races.permits (R e.1 tr) e.2 := by
  refine ⟨⟨?_, ?_⟩, h.sched tr e [] rfl, h.permits tr e [] rfl⟩
  · intro pre x post he
    exact h.sched pre x (post ++ [e]) (by rw [he]; simp)
  · intro pre x post he
    exact h.permits pre x (post ++ [e]) (by rw [he]; simp)

theorem Fine.forked {tr : List Ev} (h : Fine tr) {e : Ev} (he : e ∈ tr) : e.1 = 0 ∨ Forked e.1 tr := by
  obtain ⟨pre, post, rfl⟩ := List.append_of_mem he
  rcases (h.sched pre e post rfl).1 with h1 | ⟨x, hx, k, hk⟩
  · exact .inl h1
  · exact .inr ⟨x, List.mem_append_left _ hx, k, hk⟩

/-- How an event changes what goroutines have. -/
theorem R_snoc {tr : List Ev} {t : Tid} {op : Op} (h : Fine (tr ++ [(t, op)])) (t' : Tid) :
    R t' (tr ++ [(t, op)]) = if t' = t then upd (R t tr) op else
      match op with
      | .fork x k => if x = t' then gift k else R t' tr
      | _ => R t' tr := by
  obtain ⟨hf, hen, hpm0⟩ := h.init
  by_cases htt : t' = t
  · subst htt
    rw [if_pos rfl]
    have hk : kindOf t' (tr ++ [(t', op)]) = kindOf t' tr ∧ ∃ k, kindOf t' tr = some k := by
      by_cases hfk : Forked t' tr
      · refine ⟨kindOf_append_forked hfk _, ?_⟩
        clear hen h hf hpm0
        induction tr with
        | nil => obtain ⟨x, hx, _⟩ := hfk; cases hx
        | cons e tr ih =>
          obtain ⟨a, o⟩ := e
          by_cases hfk' : Forked t' tr
          · obtain ⟨k, hk⟩ := ih hfk'
            cases o <;> simp only [kindOf, hk, Option.some.injEq, exists_eq']
            split <;> simp
          · obtain ⟨x, hx, k, hk⟩ := hfk
            rcases List.mem_cons.1 hx with rfl | hx
            · simp only at hk; subst hk; simp [kindOf]
            · exact absurd ⟨x, hx, k, hk⟩ hfk'
      · have h0 : t' = 0 := by
          rcases hen.1 with h1 | ⟨x, hx, k, hk⟩
          · exact h1
          · exact absurd ⟨x, hx, k, hk⟩ hfk
        rw [kindOf_append_not hfk, kindOf_not hfk, if_pos h0]
        refine ⟨?_, _, rfl⟩
        cases op with
        | fork x k =>
          simp only [kindOf]
          rw [if_neg]
          · rw [if_pos h0]
          · rintro rfl; exact hen.2.1 h0
        | _ => simp [kindOf, h0]
    obtain ⟨hk1, k, hk2⟩ := hk
    simp only [R, hk1, hk2, hist_append, hist_single, if_true, after_append]
    rfl
  · rw [if_neg htt]
    have hh : hist t' (tr ++ [(t, op)]) = hist t' tr := by
      rw [hist_append, hist_single, if_neg (fun h => htt h.symm), List.append_nil]
    have hsame : (∀ x k, op = .fork x k → x ≠ t') → R t' (tr ++ [(t, op)]) = R t' tr := by
      intro hx
      have : kindOf t' (tr ++ [(t, op)]) = kindOf t' tr := by
        by_cases hfk : Forked t' tr
        · exact kindOf_append_forked hfk _
        · rw [kindOf_append_not hfk, kindOf_not hfk]
          cases op with
          | fork x k => simp only [kindOf]; rw [if_neg (hx x k rfl)]
          | _ => rfl
      simp only [R, this, hh]
    cases op with
    | fork x k =>
      simp only
      by_cases hx : x = t'
      · subst hx
        rw [if_pos rfl]
        have hnf : ¬ Forked x tr := fun ⟨y, hy, k', hk'⟩ => hen.2.2 y hy k' hk'
        have hn : hist x tr = [] := by
          apply hist_nil
          rintro e he rfl
          rcases hf.forked he with h0 | h0
          · exact hen.2.1 h0
          · exact hnf h0
        simp only [R, kindOf_append_not hnf, kindOf, if_true, hh, hn]
        rfl
      · rw [if_neg hx]
        exact hsame (by rintro y k' he; cases he; exact hx)
    | _ => exact hsame (fun x k he => by cases he)

theorem holder_snoc (l : Lock) (tr : List Ev) (e : Ev) : holder l (tr ++ [e]) = match e.2 with
    | .acq l' => if l' = l then some e.1 else holder l tr
    | .rel l' => if l' = l then none else holder l tr
    | _ => holder l tr := by
  simp only [holder, List.foldl_append, List.foldl_cons, List.foldl_nil]
  obtain ⟨t, o⟩ := e
  cases o <;> rfl

/-! ### Happens-before -/

abbrev hb (tr : List Ev) (i j : Nat) : Prop := HB false tr i j

theorem edge_mono {at' : Bool} {tr s : List Ev} {i j : Nat} (h : Edge at' tr i j) : Edge at' (tr ++ s) i j := by
  obtain ⟨h1, a, b, ha, hb, h2⟩ := h
  refine ⟨h1, a, b, ?_, ?_, h2⟩
  · rw [List.getElem?_append_left (List.getElem?_eq_some_iff.1 ha).1]; exact ha
  · rw [List.getElem?_append_left (List.getElem?_eq_some_iff.1 hb).1]; exact hb

theorem hb_mono {at' : Bool} {tr s : List Ev} {i j : Nat} (h : HB at' tr i j) : HB at' (tr ++ s) i j := by
  induction h with
  | single h => exact .single (edge_mono h)
  | tail _ h ih => exact .tail ih (edge_mono h)

def LE (tr : List Ev) (i s : Nat) : Prop := i = s ∨ hb tr i s

theorem LE.mono {tr s : List Ev} {i j : Nat} (h : LE tr i j) : LE (tr ++ s) i j := h.imp id hb_mono

/-- Whatever `t` does next comes after event `i`. -/
def Next (tr : List Ev) (i : Nat) (t : Tid) : Prop :=
  ∃ s, LE tr i s ∧ ∃ e, tr[s]? = some e ∧ (e.1 = t ∨ ∃ k, e.2 = .fork t k)

theorem get_mono {tr s : List Ev} {i : Nat} {e : Ev} (h : tr[i]? = some e) : (tr ++ s)[i]? = some e := by
  rw [List.getElem?_append_left (List.getElem?_eq_some_iff.1 h).1]; exact h

theorem Next.mono {tr s : List Ev} {i : Nat} {t : Tid} (h : Next tr i t) : Next (tr ++ s) i t := by
  obtain ⟨x, h1, e, h2, h3⟩ := h
  exact ⟨x, h1.mono, e, get_mono h2, h3⟩

theorem get_last (tr : List Ev) (e : Ev) : (tr ++ [e])[tr.length]? = some e := by simp

theorem le_edge {tr : List Ev} {i s : Nat} {x e : Ev} (h : LE tr i s) (hx : tr[s]? = some x)
    (hxe : x.1 = e.1 ∨ (∃ k, x.2 = .fork e.1 k) ∨ (∃ l, x.2 = .rel l ∧ e.2 = .acq l) ∨ (∃ m, x.2 = .send m ∧ e.2 = .recv m)) :
    hb (tr ++ [e]) i tr.length := by
  have hE : Edge false (tr ++ [e]) s tr.length :=
    ⟨(List.getElem?_eq_some_iff.1 hx).1, x, e, get_mono hx, get_last tr e, by
      rcases hxe with h | h | h | h
      · exact .inl h
      · exact .inr (.inl h)
      · exact .inr (.inr (.inl h))
      · exact .inr (.inr (.inr (.inl h)))⟩
  rcases h with rfl | h
  · exact .single hE
  · exact .tail (hb_mono h) hE

theorem Next.hb {tr : List Ev} {i : Nat} {t : Tid} {op : Op} (h : Next tr i t) : hb (tr ++ [(t, op)]) i tr.length := by
  obtain ⟨s, h1, e, h2, h3⟩ := h
  exact le_edge h1 h2 (h3.imp id .inl)

theorem next_last {tr : List Ev} {i : Nat} {t t' : Tid} {op : Op} (h : LE (tr ++ [(t, op)]) i tr.length)
    (ht : t = t' ∨ ∃ k, op = .fork t' k) : Next (tr ++ [(t, op)]) i t' :=
  ⟨_, h, _, get_last _ _, ht⟩

/-! ### Who holds which piece -/

inductive Hd where
  | th (t : Tid) | lk (l : Lock) | ms (m : Msg)

def InFlight (m : Msg) (tr : List Ev) : Prop := (∃ x ∈ tr, x.2 = .send m) ∧ ∀ x ∈ tr, x.2 ≠ .recv m

def Opened (l : Lock) (tr : List Ev) : Prop := ∃ x ∈ tr, x.2 = .open_ l

def Holds (tr : List Ev) (p : Piece) : Hd → Prop
  | .th t => p ∈ (R t tr).own
  | .lk l => p ∈ guarded l ∧ Opened l tr ∧ holder l tr = none
  | .ms m => p ∈ (cargo m).1 ∧ InFlight m tr

def Knows (tr : List Ev) (p : Piece) : Hd → Prop
  | .th t => p ∈ (R t tr).know
  | .lk _ => False
  | .ms m => p ∈ (cargo m).2 ∧ InFlight m tr

/-- Event `i` comes before whatever the holder does next with the piece. -/
def Known (tr : List Ev) (i : Nat) : Hd → Prop
  | .th t => Next tr i t
  | .lk l => (∃ r x, LE tr i r ∧ tr[r]? = some x ∧ x.2 = .rel l) ∨ ∀ t, l ∈ (R t tr).opened → Next tr i t
  | .ms m => ∃ s x, LE tr i s ∧ tr[s]? = some x ∧ x.2 = .send m

/-- Event `i` is an access with piece `p` held. -/
def Owned (tr : List Ev) (i : Nat) (p : Piece) : Prop :=
  ∃ e, tr[i]? = some e ∧ (e.2 = .new p.1 ∨ ∃ m, e.2 = .acc m p.1 ∧ p ∈ (R e.1 (tr.take i)).own)

structure Inv (tr : List Ev) : Prop where
  alloc : ∀ p h, Holds tr p h ∨ Knows tr p h → ∃ x ∈ tr, x.2 = .new p.1
  uniq : ∀ p h h', Holds tr p h → Holds tr p h' → h = h'
  excl : ∀ p h h', Holds tr p h → ¬ Knows tr p h'
  opened : ∀ t l, l ∈ (R t tr).opened → Opened l tr
  accessed : ∀ p i, Owned tr i p → ∃ x ∈ tr, x.2 = .new p.1
  known : ∀ p i h, Owned tr i p → Holds tr p h ∨ Knows tr p h → Known tr i h

theorem R_nil (t : Tid) : R t [] = ⟨[], [], []⟩ := by
  unfold R
  by_cases h : t = 0 <;> simp [kindOf, h, hist, after, gift]

theorem inv_nil : Inv [] := by
  have hh : ∀ p h, ¬ Holds [] p h := by
    intro p h
    cases h <;> simp [Holds, R_nil, Opened, InFlight]
  have hk : ∀ p h, ¬ Knows [] p h := by
    intro p h
    cases h <;> simp [Knows, R_nil, InFlight]
  refine ⟨fun p h hx => ?_, fun p h h' hx => (hh p h hx).elim, fun p h h' hx => (hh p h hx).elim, ?_, fun p i hx => ?_, fun p i h hx => ?_⟩
  · rcases hx with hx | hx
    · exact (hh p h hx).elim
    · exact (hk p h hx).elim
  · intro t l hl; rw [R_nil] at hl; cases hl
  · obtain ⟨e, he, _⟩ := hx; simp at he
  · obtain ⟨e, he, _⟩ := hx; simp at he

theorem inFlight_snoc {m : Msg} {tr : List Ev} {e : Ev} (h : InFlight m (tr ++ [e])) : InFlight m tr ∨ e.2 = .send m := by
  obtain ⟨⟨x, hx, hxe⟩, h2⟩ := h
  rcases List.mem_append.1 hx with hx | hx
  · exact .inl ⟨⟨x, hx, hxe⟩, fun y hy => h2 y (List.mem_append_left _ hy)⟩
  · simp only [List.mem_singleton] at hx; subst hx; exact .inr hxe

theorem inFlight_not_recv {m : Msg} {tr : List Ev} {e : Ev} (h : InFlight m (tr ++ [e])) : e.2 ≠ .recv m :=
  h.2 e (by simp)

theorem opened_snoc {l : Lock} {tr : List Ev} {e : Ev} (h : Opened l (tr ++ [e])) : Opened l tr ∨ e.2 = .open_ l := by
  obtain ⟨x, hx, hxe⟩ := h
  rcases List.mem_append.1 hx with hx | hx
  · exact .inl ⟨x, hx, hxe⟩
  · simp only [List.mem_singleton] at hx; subst hx; exact .inr hxe

/-- Where a piece comes from that is somewhere after an event. -/
inductive From (tr : List Ev) (t : Tid) (op : Op) (p : Piece) : Hd → Prop where
  /-- it stays, and is not one that moves away -/
  | stay {h} : Holds tr p h → (∀ l, op = .acq l → p ∈ guarded l → h ≠ .lk l) → (∀ l, op = .rel l → p ∈ guarded l → h ≠ .th t) →
      (∀ x k, op = .fork x k → p ∈ (gift k).own → h ≠ .th t) → (∀ m, op = .send m → p ∈ (cargo m).1 → h ≠ .th t) →
      (∀ m, op = .recv m → p ∈ (cargo m).1 → h ≠ .ms m) → (∀ l, op = .open_ l → p ∈ guarded l → h ≠ .th t) →
      (∀ f, op = .freeze f → p = fz f → h ≠ .th t) → From tr t op p h
  | new : op = .new p.1 → From tr t op p (.th t)
  | acq {l} : op = .acq l → p ∈ guarded l → From tr t op p (.th t)
  | rel {l} : op = .rel l → p ∈ guarded l → From tr t op p (.lk l)
  | fork {x k} : op = .fork x k → p ∈ (gift k).own → From tr t op p (.th x)
  | send {m} : op = .send m → p ∈ (cargo m).1 → From tr t op p (.ms m)
  | recv {m} : op = .recv m → p ∈ (cargo m).1 → From tr t op p (.th t)
  | open_ {l} : op = .open_ l → p ∈ guarded l → holder l tr = none → From tr t op p (.lk l)

theorem mem_pieces {p : Piece} {f : Field} : p ∈ pieces f ↔ p.1 = f := by
  obtain ⟨g, c⟩ := p
  cases c <;> simp [pieces]

theorem holds_from {tr : List Ev} {t : Tid} {op : Op} (h : Fine (tr ++ [(t, op)])) (hi : Inv tr) {p : Piece} {hd : Hd}
    (hh : Holds (tr ++ [(t, op)]) p hd) : From tr t op p hd := by
  obtain ⟨hf, hen, hpm⟩ := h.init
  cases hd with
  | th t' =>
    simp only [Holds] at hh
    rw [R_snoc h] at hh
    by_cases ht : t' = t
    · subst ht
      rw [if_pos rfl] at hh
      cases op with
      | new f =>
        simp only [upd, List.mem_append, mem_pieces] at hh
        rcases hh with hh | hh
        · exact .new (by rw [hh])
        · exact .stay hh (by simp) (by simp) (by simp) (by simp) (by simp) (by simp) (by simp)
      | acc m f => exact .stay hh (by simp) (by simp) (by simp) (by simp) (by simp) (by simp) (by simp)
      | acq l =>
        simp only [upd, List.mem_append] at hh
        rcases hh with hh | hh
        · exact .acq rfl hh
        · exact .stay hh (by simp) (by simp) (by simp) (by simp) (by simp) (by simp) (by simp)
      | rel l =>
        simp only [upd, mem_less] at hh
        refine .stay hh.1 (by simp) ?_ (by simp) (by simp) (by simp) (by simp) (by simp)
        intro l' he hp; cases he; exact absurd hp hh.2
      | fork x k =>
        simp only [upd, mem_less] at hh
        refine .stay hh.1 (by simp) (by simp) ?_ (by simp) (by simp) (by simp) (by simp)
        intro x' k' he hp; cases he; exact absurd hp hh.2
      | send m =>
        simp only [upd, mem_less] at hh
        refine .stay hh.1 (by simp) (by simp) (by simp) ?_ (by simp) (by simp) (by simp)
        intro m' he hp; cases he; exact absurd hp hh.2
      | recv m =>
        simp only [upd, List.mem_append] at hh
        rcases hh with hh | hh
        · exact .recv rfl hh
        · exact .stay hh (by simp) (by simp) (by simp) (by simp) (by simp) (by simp) (by simp)
      | open_ l =>
        simp only [upd, mem_less] at hh
        refine .stay hh.1 (by simp) (by simp) (by simp) (by simp) (by simp) ?_ (by simp)
        intro l' he hp; cases he; exact absurd hp hh.2
      | freeze f =>
        simp only [upd, mem_less, List.mem_singleton] at hh
        refine .stay hh.1 (by simp) (by simp) (by simp) (by simp) (by simp) (by simp) ?_
        intro f' he hp; cases he; exact absurd hp hh.2
    · rw [if_neg ht] at hh
      have hstay : p ∈ (R t' tr).own → From tr t op p (.th t') := fun hx =>
        .stay hx (by simp) (by simp [ht]) (by simp [ht]) (by simp [ht]) (by simp) (by simp [ht]) (by simp [ht])
      cases op with
      | fork x k =>
        simp only at hh
        split at hh
        · rename_i hx; subst hx; exact .fork rfl hh
        · exact hstay hh
      | _ => exact hstay hh
  | lk l =>
    obtain ⟨hp, ho, hl⟩ := hh
    rw [holder_snoc] at hl
    rcases opened_snoc ho with ho | ho
    · have hold : holder l tr = none → (∀ l', op = .acq l' → l' ≠ l) → From tr t op p (.lk l) := fun hx hne =>
        .stay ⟨hp, ho, hx⟩ (fun l' he _ => by rintro ⟨⟩; exact hne l he rfl) (by simp) (by simp) (by simp) (by simp) (by simp) (by simp)
      cases op with
      | acq l' =>
        simp only at hl
        split at hl
        · cases hl
        · rename_i hne; exact hold hl (by rintro l'' he; cases he; exact hne)
      | rel l' =>
        simp only at hl
        split at hl
        · rename_i he; subst he; exact .rel rfl hp
        · exact hold hl (by simp)
      | _ => exact hold hl (by simp)
    · simp only at ho; subst ho
      exact .open_ rfl hp hl
  | ms m =>
    obtain ⟨hp, hfl⟩ := hh
    rcases inFlight_snoc hfl with h1 | h1
    · have := inFlight_not_recv hfl
      exact .stay ⟨hp, h1⟩ (by simp) (by simp) (by simp) (by simp) (fun m' he _ => by rintro ⟨⟩; exact this he) (by simp) (by simp)
    · exact .send h1 hp

/-- Where a moved piece was before. -/
theorem from_source {tr : List Ev} {t : Tid} {op : Op} (h : Fine (tr ++ [(t, op)])) (hi : Inv tr) {p : Piece} {hd : Hd}
    (hfr : From tr t op p hd) : op = .new p.1 ∨ ∃ src, Holds tr p src := by
  obtain ⟨hf, hen, hpm⟩ := h.init
  cases hfr with
  | stay hx => exact .inr ⟨_, hx⟩
  | new he => exact .inl he
  | acq he hp =>
    subst he
    exact .inr ⟨.lk _, hp, hi.opened t _ hpm, hen.2⟩
  | rel he hp => subst he; exact .inr ⟨.th t, hpm.2 hp⟩
  | fork he hp => subst he; exact .inr ⟨.th t, hpm.1 hp⟩
  | send he hp => subst he; exact .inr ⟨.th t, hpm.1 hp⟩
  | recv he hp => subst he; exact .inr ⟨.ms _, hp, hen.2⟩
  | open_ he hp _ => subst he; exact .inr ⟨.th t, hpm hp⟩

theorem unallocated {tr : List Ev} {t : Tid} {p : Piece} (h : Fine (tr ++ [(t, .new p.1)])) (hi : Inv tr) (hd : Hd) :
    ¬ Holds tr p hd ∧ ¬ Knows tr p hd := by
  obtain ⟨_, hen, _⟩ := h.init
  constructor <;> intro hx
  · obtain ⟨x, hx1, hx2⟩ := hi.alloc p hd (.inl hx)
    exact hen.2 x hx1 hx2
  · obtain ⟨x, hx1, hx2⟩ := hi.alloc p hd (.inr hx)
    exact hen.2 x hx1 hx2

theorem from_uniq {tr : List Ev} {t : Tid} {op : Op} (h : Fine (tr ++ [(t, op)])) (hi : Inv tr) {p : Piece} {h1 h2 : Hd}
    (hf1 : From tr t op p h1) (hf2 : From tr t op p h2) : h1 = h2 := by
  have hpm := h.init.2.2
  have hen := h.init.2.1
  -- a moved piece leaves its source
  cases hf1 with
  | stay hx a1 a2 a3 a4 a5 a6 a7 =>
    cases hf2 with
    | stay hy => exact hi.uniq p _ _ hx hy
    | new he => subst he; exact absurd hx (unallocated h hi _).1
    | acq he hp => subst he; exact absurd (hi.uniq p _ (.lk _) hx ⟨hp, hi.opened t _ hpm, hen.2⟩) (a1 _ rfl hp)
    | rel he hp => subst he; exact absurd (hi.uniq p _ (.th t) hx (hpm.2 hp)) (a2 _ rfl hp)
    | fork he hp => subst he; exact absurd (hi.uniq p _ (.th t) hx (hpm.1 hp)) (a3 _ _ rfl hp)
    | send he hp => subst he; exact absurd (hi.uniq p _ (.th t) hx (hpm.1 hp)) (a4 _ rfl hp)
    | recv he hp => subst he; exact absurd (hi.uniq p _ (.ms _) hx ⟨hp, hen.2⟩) (a5 _ rfl hp)
    | open_ he hp _ => subst he; exact absurd (hi.uniq p _ (.th t) hx (hpm hp)) (a6 _ rfl hp)
  | new he =>
    subst he
    cases hf2 with
    | stay hy => exact absurd hy (unallocated h hi _).1
    | new => rfl
    | _ h' => cases h'
  | acq he hp =>
    subst he
    cases hf2 with
    | stay hx a1 a2 a3 a4 a5 a6 a7 => exact absurd (hi.uniq p _ (.lk _) hx ⟨hp, hi.opened t _ hpm, hen.2⟩) (a1 _ rfl hp)
    | acq => rfl
    | _ h' => cases h'
  | rel he hp =>
    subst he
    cases hf2 with
    | stay hx a1 a2 a3 a4 a5 a6 a7 => exact absurd (hi.uniq p _ (.th t) hx (hpm.2 hp)) (a2 _ rfl hp)
    | rel h' _ => cases h'; rfl
    | _ h' => cases h'
  | fork he hp =>
    subst he
    cases hf2 with
    | stay hx a1 a2 a3 a4 a5 a6 a7 => exact absurd (hi.uniq p _ (.th t) hx (hpm.1 hp)) (a3 _ _ rfl hp)
    | fork h' _ => cases h'; rfl
    | _ h' => cases h'
  | send he hp =>
    subst he
    cases hf2 with
    | stay hx a1 a2 a3 a4 a5 a6 a7 => exact absurd (hi.uniq p _ (.th t) hx (hpm.1 hp)) (a4 _ rfl hp)
    | send h' _ => cases h'; rfl
    | _ h' => cases h'
  | recv he hp =>
    subst he
    cases hf2 with
    | stay hx a1 a2 a3 a4 a5 a6 a7 => exact absurd (hi.uniq p _ (.ms _) hx ⟨hp, hen.2⟩) (a5 _ rfl hp)
    | recv => rfl
    | _ h' => cases h'
  | open_ he hp _ =>
    subst he
    cases hf2 with
    | stay hx a1 a2 a3 a4 a5 a6 a7 => exact absurd (hi.uniq p _ (.th t) hx (hpm hp)) (a6 _ rfl hp)
    | open_ h' _ => cases h'; rfl
    | _ h' => cases h'

/-- Where knowledge comes from. -/
inductive KFrom (tr : List Ev) (t : Tid) (op : Op) (p : Piece) : Hd → Prop where
  | stay {h} : Knows tr p h → KFrom tr t op p h
  | fork {x k} : op = .fork x k → p ∈ (R t tr).know → KFrom tr t op p (.th x)
  | send {m} : op = .send m → p ∈ (R t tr).know → KFrom tr t op p (.ms m)
  | recv {m} : op = .recv m → Knows tr p (.ms m) → KFrom tr t op p (.th t)
  | freeze {f} : op = .freeze f → p = fz f → p ∈ (R t tr).own → KFrom tr t op p (.th t)

theorem knows_from {tr : List Ev} {t : Tid} {op : Op} (h : Fine (tr ++ [(t, op)])) {p : Piece} {hd : Hd}
    (hk : Knows (tr ++ [(t, op)]) p hd) : KFrom tr t op p hd := by
  obtain ⟨hf, hen, hpm⟩ := h.init
  cases hd with
  | lk l => cases hk
  | ms m =>
    obtain ⟨hp, hfl⟩ := hk
    rcases inFlight_snoc hfl with h1 | h1
    · exact .stay ⟨hp, h1⟩
    · simp only at h1; subst h1
      exact .send rfl (hpm.2 hp)
  | th t' =>
    simp only [Knows] at hk
    rw [R_snoc h] at hk
    by_cases ht : t' = t
    · subst ht
      rw [if_pos rfl] at hk
      cases op with
      | recv m =>
        simp only [upd, List.mem_append] at hk
        rcases hk with hk | hk
        · exact .recv rfl ⟨hk, hen.2⟩
        · exact .stay hk
      | freeze f =>
        simp only [upd, List.mem_cons] at hk
        rcases hk with hk | hk
        · exact .freeze rfl hk (by rw [hk]; exact hpm)
        · exact .stay hk
      | _ => exact .stay hk
    · rw [if_neg ht] at hk
      cases op with
      | fork x k =>
        simp only at hk
        split at hk
        · rename_i hx; subst hx; exact .fork rfl (hpm.2.1 hk)
        · exact .stay hk
      | _ => exact .stay hk

theorem owned_snoc {tr : List Ev} {t : Tid} {op : Op} {i : Nat} {p : Piece} (h : Owned (tr ++ [(t, op)]) i p) :
    Owned tr i p ∨ (i = tr.length ∧ (op = .new p.1 ∨ (∃ m, op = .acc m p.1) ∧ p ∈ (R t tr).own)) := by
  obtain ⟨e, he, hx⟩ := h
  by_cases hi : i < tr.length
  · refine .inl ⟨e, by rw [List.getElem?_append_left hi] at he; exact he, ?_⟩
    rwa [List.take_append_of_le_length (by omega)] at hx
  · have hl := (List.getElem?_eq_some_iff.1 he).1
    simp only [List.length_append, List.length_cons, List.length_nil] at hl
    have : i = tr.length := by omega
    subst this
    rw [get_last] at he
    simp only [Option.some.injEq] at he; subst he
    refine .inr ⟨rfl, ?_⟩
    rcases hx with hx | ⟨m, hx, hp⟩
    · exact .inl hx
    · rw [List.take_left] at hp
      exact .inr ⟨⟨m, hx⟩, hp⟩

theorem opened_mono {tr : List Ev} {l : Lock} (e : Ev) (h : Opened l tr) : Opened l (tr ++ [e]) := by
  obtain ⟨x, hx, hxe⟩ := h
  exact ⟨x, List.mem_append_left _ hx, hxe⟩

/-- Who knows a lock after an event. -/
theorem knows_lock {tr : List Ev} {t : Tid} {op : Op} (h : Fine (tr ++ [(t, op)])) {l : Lock} {t' : Tid}
    (hl : l ∈ (R t' (tr ++ [(t, op)])).opened) :
    l ∈ (R t' tr).opened ∨ (op = .open_ l ∧ t' = t) ∨ ((∃ k, op = .fork t' k) ∧ l ∈ (R t tr).opened) := by
  obtain ⟨hf, hen, hpm⟩ := h.init
  rw [R_snoc h] at hl
  by_cases ht : t' = t
  · subst ht
    rw [if_pos rfl] at hl
    cases op with
    | open_ l' =>
      simp only [upd, List.mem_cons] at hl
      rcases hl with rfl | hl
      · exact .inr (.inl ⟨rfl, rfl⟩)
      · exact .inl hl
    | _ => exact .inl hl
  · rw [if_neg ht] at hl
    cases op with
    | fork x k =>
      simp only at hl
      split at hl
      · rename_i hx; subst hx; exact .inr (.inr ⟨⟨k, rfl⟩, hpm.2.2 hl⟩)
      · exact .inl hl
    | _ => exact .inl hl

theorem inv_snoc {tr : List Ev} {t : Tid} {op : Op} (h : Fine (tr ++ [(t, op)])) (hi : Inv tr) : Inv (tr ++ [(t, op)]) := by
  obtain ⟨hf, hen, hpm⟩ := h.init
  refine ⟨?_, ?_, ?_, ?_, ?_, ?_⟩
  · -- alloc
    intro p hd hx
    have : op = .new p.1 ∨ (∃ src, Holds tr p src ∨ Knows tr p src) := by
      rcases hx with hx | hx
      · rcases from_source h hi (holds_from h hi hx) with h1 | ⟨s, h1⟩
        · exact .inl h1
        · exact .inr ⟨s, .inl h1⟩
      · cases knows_from h hx with
        | stay h1 => exact .inr ⟨_, .inr h1⟩
        | fork _ h1 => exact .inr ⟨.th t, .inr h1⟩
        | send _ h1 => exact .inr ⟨.th t, .inr h1⟩
        | recv _ h1 => exact .inr ⟨_, .inr h1⟩
        | freeze _ _ h1 => exact .inr ⟨.th t, .inl h1⟩
    rcases this with h1 | ⟨s, h1⟩
    · exact ⟨(t, op), by simp, h1⟩
    · obtain ⟨x, hx1, hx2⟩ := hi.alloc p s h1
      exact ⟨x, List.mem_append_left _ hx1, hx2⟩
  · intro p h1 h2 a b
    exact from_uniq h hi (holds_from h hi a) (holds_from h hi b)
  · -- excl
    intro p h1 h2 a b
    have hfr := holds_from h hi a
    have hsrc := from_source h hi hfr
    have hkt : ∀ s, Knows tr p s → False := by
      intro s hs
      rcases hsrc with hn | ⟨s', hs'⟩
      · subst hn; exact (unallocated h hi s).2 hs
      · exact hi.excl p s' s hs' hs
    cases knows_from h b with
    | stay h1 => exact hkt _ h1
    | fork _ h1 => exact hkt (.th t) h1
    | send _ h1 => exact hkt (.th t) h1
    | recv _ h1 => exact hkt _ h1
    | freeze he hp ho =>
      subst he
      cases hfr with
      | stay hx a1 a2 a3 a4 a5 a6 a7 => exact a7 _ rfl hp (hi.uniq p _ (.th t) hx ho)
      | _ h' => cases h'
  · -- opened
    intro t' l hl
    rcases knows_lock h hl with h1 | ⟨h1, _⟩ | ⟨_, h1⟩
    · exact opened_mono _ (hi.opened t' l h1)
    · exact ⟨(t, op), by simp, h1⟩
    · exact opened_mono _ (hi.opened t l h1)
  · -- accessed
    intro p i ho
    rcases owned_snoc ho with ho | ⟨_, ho | ⟨_, ho⟩⟩
    · obtain ⟨x, hx1, hx2⟩ := hi.accessed p i ho
      exact ⟨x, List.mem_append_left _ hx1, hx2⟩
    · exact ⟨(t, op), by simp, ho⟩
    · obtain ⟨x, hx1, hx2⟩ := hi.alloc p (.th t) (.inl ho)
      exact ⟨x, List.mem_append_left _ hx1, hx2⟩
  · -- known
    intro p i hd ho0 hx
    have ho1 := owned_snoc ho0
    clear ho0
    rcases ho1 with ho | ⟨rfl, ho⟩
    · -- an earlier access
      have key : ∀ s, Holds tr p s ∨ Knows tr p s → Known tr i s := fun s hs => hi.known p i s ho hs
      have hth : Holds tr p (.th t) ∨ Knows tr p (.th t) → hb (tr ++ [(t, op)]) i tr.length := fun hs => (key _ hs).hb
      rcases hx with hx | hx
      · have hfr := holds_from h hi hx
        cases hfr with
        | stay hs a1 a2 a3 a4 a5 a6 a7 =>
          have hk := key _ (.inl hs)
          cases hd with
          | th t' => exact hk.mono
          | ms m =>
            obtain ⟨s, x, h1, h2, h3⟩ := hk
            exact ⟨s, x, h1.mono, get_mono h2, h3⟩
          | lk l =>
            rcases hk with ⟨r, x, h1, h2, h3⟩ | hk
            · exact .inl ⟨r, x, h1.mono, get_mono h2, h3⟩
            · refine .inr fun t' hl => ?_
              rcases knows_lock h hl with h1 | ⟨h1, h2⟩ | ⟨h1, h2⟩
              · exact (hk t' h1).mono
              · subst h1
                exact absurd (hi.uniq p (.lk l) (.th t) hs (hpm hs.1)) (by simp)
              · exact next_last (.inr (hk t h2).hb) (.inr h1)
        | new he =>
          subst he
          obtain ⟨x, hx1, hx2⟩ := hi.accessed p i ho
          exact absurd hx2 (hen.2 x hx1)
        | @acq l he hp =>
          subst he
          rcases key (.lk l) (.inl ⟨hp, hi.opened t _ hpm, hen.2⟩) with ⟨r, x, h1, h2, h3⟩ | hk
          · exact next_last (.inr (le_edge h1 h2 (.inr (.inr (.inl ⟨l, h3, rfl⟩))))) (.inl rfl)
          · exact (hk t hpm).mono
        | @rel l he hp =>
          subst he
          exact .inl ⟨tr.length, _, .inr (hth (.inl (hpm.2 hp))), get_last _ _, rfl⟩
        | @fork x k he hp =>
          subst he
          exact next_last (.inr (hth (.inl (hpm.1 hp)))) (.inr ⟨k, rfl⟩)
        | @send m he hp =>
          subst he
          exact ⟨tr.length, _, .inr (hth (.inl (hpm.1 hp))), get_last _ _, rfl⟩
        | @recv m he hp =>
          subst he
          obtain ⟨s, x, h1, h2, h3⟩ := key (.ms m) (.inl ⟨hp, hen.2⟩)
          exact next_last (.inr (le_edge h1 h2 (.inr (.inr (.inr ⟨m, h3, rfl⟩))))) (.inl rfl)
        | @open_ l he hp hl =>
          subst he
          refine .inr fun t' hl' => ?_
          have hno : ∀ t'', l ∈ (R t'' tr).opened → False := fun t'' h1 =>
            absurd (hi.uniq p (.lk l) (.th t) ⟨hp, hi.opened t'' l h1, hl⟩ (hpm hp)) (by simp)
          rcases knows_lock h hl' with h1 | ⟨_, h2⟩ | ⟨h1, h2⟩
          · exact (hno t' h1).elim
          · rw [h2]; exact (key (.th t) (.inl (hpm hp))).mono
          · exact (hno t h2).elim
      · cases knows_from h hx with
        | stay hs =>
          have hk := key _ (.inr hs)
          cases hd with
          | th t' => exact hk.mono
          | ms m =>
            obtain ⟨s, x, h1, h2, h3⟩ := hk
            exact ⟨s, x, h1.mono, get_mono h2, h3⟩
          | lk l => cases hs
        | @fork x k he h1 => subst he; exact next_last (.inr (hth (.inr h1))) (.inr ⟨k, rfl⟩)
        | @send m he h1 => subst he; exact ⟨tr.length, _, .inr (hth (.inr h1)), get_last _ _, rfl⟩
        | @recv m he h1 =>
          subst he
          obtain ⟨s, x, h1, h2, h3⟩ := key (.ms m) (.inr h1)
          exact next_last (.inr (le_edge h1 h2 (.inr (.inr (.inr ⟨m, h3, rfl⟩))))) (.inl rfl)
        | freeze he hp h1 => exact (key (.th t) (.inl h1)).mono
    · -- the last event
      have hself : Next (tr ++ [(t, op)]) tr.length t := next_last (.inl rfl) (.inl rfl)
      rcases ho with he | ⟨⟨m, he⟩, hown⟩
      · subst he
        rcases hx with hx | hx
        · cases holds_from h hi hx with
          | stay hs => exact absurd hs (unallocated h hi _).1
          | new => exact hself
          | _ h' => cases h'
        · cases knows_from h hx with
          | stay hs => exact absurd hs (unallocated h hi _).2
          | _ h' => cases h'
      · subst he
        rcases hx with hx | hx
        · cases holds_from h hi hx with
          | stay hs => cases hi.uniq p _ (.th t) hs hown; exact hself
          | _ h' => cases h'
        · cases knows_from h hx with
          | stay hs => exact absurd hs (hi.excl p (.th t) _ hown)
          | _ h' => cases h'

/-! ### Permissions exclude races -/

theorem inv_of_fine (tr : List Ev) (h : Fine tr) : Inv tr := by
  induction tr using List.reverseRecOn with
  | nil => exact inv_nil
  | append_singleton tr e ih => exact inv_snoc h (ih h.init.1)

theorem Fine.take {tr : List Ev} (h : Fine tr) (n : Nat) : Fine (tr.take n) := by
  refine ⟨?_, ?_⟩
  · intro pre x post he
    exact h.sched pre x (post ++ tr.drop n) (by rw [← List.cons_append, ← List.append_assoc, ← he, List.take_append_drop])
  · intro pre x post he
    exact h.permits pre x (post ++ tr.drop n) (by rw [← List.cons_append, ← List.append_assoc, ← he, List.take_append_drop])

theorem know_snoc {tr : List Ev} {e : Ev} (h : Fine (tr ++ [e])) {t : Tid} {p : Piece} (hp : p ∈ (R t tr).know) :
    p ∈ (R t (tr ++ [e])).know := by
  obtain ⟨x, op⟩ := e
  rw [R_snoc h]
  by_cases ht : t = x
  · subst ht
    rw [if_pos rfl]
    cases op <;> simp only [upd, List.mem_append, List.mem_cons] <;> simp [hp]
  · rw [if_neg ht]
    cases op with
    | fork y k =>
      simp only
      split
      · rename_i hy; subst hy
        exfalso
        obtain ⟨hf, hen, _⟩ := h.init
        have hnf : ¬ Forked y tr := fun ⟨z, hz, k', hk'⟩ => hen.2.2 z hz k' hk'
        simp only [R, kindOf_not hnf, if_neg hen.2.1] at hp
        cases hp
      · exact hp
    | _ => exact hp

theorem know_mono {tr s : List Ev} (h : Fine (tr ++ s)) {t : Tid} {p : Piece} (hp : p ∈ (R t tr).know) :
    p ∈ (R t (tr ++ s)).know := by
  induction s using List.reverseRecOn with
  | nil => simpa using hp
  | append_singleton s e ih =>
    rw [← List.append_assoc] at h ⊢
    exact know_snoc h (ih h.init.1)

/-- With which piece held an operation accesses. -/
def Excl (r : Res) (o : Op) (p : Piece) : Prop := o = .new p.1 ∨ ∃ m, o = .acc m p.1 ∧ p ∈ r.own

def Shared (r : Res) (o : Op) (p : Piece) : Prop := Excl r o p ∨ ∃ m, o = .acc m p.1 ∧ p ∈ r.know

theorem shared_of_has {r : Res} {m : Mode} {f : Field} {c : Pc} (h : Has r (f, c)) : Shared r (.acc m f) (f, c) :=
  h.elim (fun h => .inl (.inr ⟨m, rfl, h⟩)) (fun h => .inr ⟨m, rfl, h⟩)

theorem excl_of_own {r : Res} {m : Mode} {f : Field} {c : Pc} (h : (f, c) ∈ r.own) : Excl r (.acc m f) (f, c) := .inr ⟨m, rfl, h⟩

/-- Every access has some piece. -/
theorem some_piece {r : Res} {o : Op} {m : Mode} {f : Field} (ha : access o = some (m, f)) (hp : permits r o) (hc : cls f ≠ .racy) :
    ∃ c, Shared r o (f, c) := by
  cases o with
  | new g => simp only [access, Option.some.injEq, Prod.mk.injEq] at ha; rw [← ha.2]; exact ⟨.a, .inl (.inl rfl)⟩
  | acc m' g =>
    simp only [access, Option.some.injEq, Prod.mk.injEq] at ha
    obtain ⟨rfl, rfl⟩ := ha
    simp only [permits, may] at hp
    cases hcl : cls g <;> cases m' <;> simp only [hcl] at hp hc <;>
      first
      | exact absurd rfl hc
      | exact ⟨.a, .inl (excl_of_own hp.1)⟩
      | exact ⟨.a, .inl (excl_of_own hp)⟩
      | exact hp.elim (fun h => ⟨.a, shared_of_has h⟩) (fun h => ⟨.b, shared_of_has h⟩)
      | exact ⟨_, shared_of_has hp⟩
  | _ => cases ha

/-- Two accesses that conflict have a piece in common, which one of them holds. -/
theorem common_aux {ra rb : Res} {m m' : Mode} {f : Field} (ha : may ra m f) (hb : may rb m' f) (hc : cls f ≠ .racy)
    (hw : Mode.writes m) (hat : ¬ (Mode.atomic m ∧ Mode.atomic m')) :
    ∃ c, (Excl ra (.acc m f) (f, c) ∧ Shared rb (.acc m' f) (f, c)) ∨ (Shared ra (.acc m f) (f, c) ∧ Excl rb (.acc m' f) (f, c)) := by
  simp only [may] at ha hb
  simp only [Mode.writes, Mode.atomic] at hw hat
  cases hcl : cls f <;> cases m <;> cases m' <;> simp only [hcl] at ha hb hc <;>
    first
    | exact absurd rfl hc
    | (exfalso; revert hw; simp; done)
    | (exfalso; revert hat; simp; done)
    | exact ⟨.a, .inl ⟨excl_of_own ha.1, .inl (excl_of_own hb.1)⟩⟩
    | exact ⟨.c, .inl ⟨excl_of_own ha.2.2, shared_of_has hb⟩⟩
    | exact hb.elim (fun h => ⟨.a, .inl ⟨excl_of_own ha.1, shared_of_has h⟩⟩) (fun h => ⟨.b, .inl ⟨excl_of_own ha.2, shared_of_has h⟩⟩)
    | exact hb.elim (fun h => ⟨.a, .inl ⟨excl_of_own ha.1, shared_of_has h⟩⟩) (fun h => ⟨.b, .inl ⟨excl_of_own ha.2.1, shared_of_has h⟩⟩)
    | exact ⟨.a, .inl ⟨excl_of_own ha, .inl (excl_of_own hb)⟩⟩
    | exact ⟨.a, .inl ⟨excl_of_own ha, shared_of_has hb⟩⟩
    | exact ⟨.a, .inr ⟨shared_of_has ha, excl_of_own hb⟩⟩

theorem common {ra rb : Res} {a b : Op} {m m' : Mode} {f : Field} (ha : access a = some (m, f)) (hb : access b = some (m', f))
    (hpa : permits ra a) (hpb : permits rb b) (hc : cls f ≠ .racy) (hw : Mode.writes m ∨ Mode.writes m')
    (hat : ¬ (Mode.atomic m ∧ Mode.atomic m')) :
    ∃ c, (Excl ra a (f, c) ∧ Shared rb b (f, c)) ∨ (Shared ra a (f, c) ∧ Excl rb b (f, c)) := by
  by_cases hna : a = .new f
  · obtain ⟨c, h⟩ := some_piece hb hpb hc
    exact ⟨c, .inl ⟨.inl hna, h⟩⟩
  by_cases hnb : b = .new f
  · obtain ⟨c, h⟩ := some_piece ha hpa hc
    exact ⟨c, .inr ⟨h, .inl hnb⟩⟩
  have shape : ∀ {o : Op} {x : Mode}, access o = some (x, f) → o ≠ .new f → o = .acc x f := by
    intro o x h hn
    cases o <;> simp only [access, Option.some.injEq, Prod.mk.injEq] at h
    · exact absurd (by rw [h.2]) hn
    · rw [h.1, h.2]
    all_goals cases h
  have h1 := shape ha hna
  have h2 := shape hb hnb
  subst h1 h2
  rcases hw with hw | hw
  · exact common_aux hpa hpb hc hw hat
  · obtain ⟨c, h⟩ := common_aux hpb hpa hc hw (fun h => hat ⟨h.2, h.1⟩)
    exact ⟨c, h.symm.imp And.symm And.symm⟩

theorem race_free {tr : List Ev} (h : Fine tr) {f : Field} (hc : cls f ≠ .racy) : ¬ Race false tr f := by
  rintro ⟨i, j, a, b, hij, hai, hbj, ⟨hne, m, m', hma, hmb, hw, hat⟩, hnhb⟩
  have hsplit : ∀ n e, tr[n]? = some e → tr = tr.take n ++ e :: tr.drop (n + 1) := by
    intro n e hn
    obtain ⟨hl, he⟩ := List.getElem?_eq_some_iff.1 hn
    rw [← he]; simp
  have hpa := h.permits _ _ _ (hsplit i a hai)
  have hpb := h.permits _ _ _ (hsplit j b hbj)
  have hen := h.sched _ _ _ (hsplit j b hbj)
  have hinv := inv_of_fine _ (h.take j)
  have hai' : (tr.take j)[i]? = some a := by rw [List.getElem?_take_of_lt hij]; exact hai
  have htt : (tr.take j).take i = tr.take i := by rw [List.take_take, Nat.min_eq_left (by omega)]
  have hkeep : ∀ p, p ∈ (R a.1 (tr.take i)).know → p ∈ (R a.1 (tr.take j)).know := by
    intro p hp
    have hs : tr.take j = tr.take i ++ (tr.take j).drop i := by rw [← htt, List.take_append_drop]
    rw [hs]
    exact know_mono (by rw [← hs]; exact h.take j) hp
  have hown : ∀ p, Excl (R a.1 (tr.take i)) a.2 p → Owned (tr.take j) i p := by
    intro p hp
    exact ⟨a, hai', by rw [htt]; exact hp⟩
  have hlen : (tr.take j).length = j := by
    rw [List.length_take]
    have := (List.getElem?_eq_some_iff.1 hbj).1
    omega
  have hfin : Next (tr.take j) i b.1 → False := by
    intro hn
    apply hnhb
    have := hn.hb (op := b.2)
    rw [hlen] at this
    rw [hsplit j b hbj, ← List.singleton_append, ← List.append_assoc]
    exact hb_mono this
  obtain ⟨c, hcm⟩ := common hma hmb hpa hpb hc hw hat
  have hnew : b.2 = .new f → (∃ x ∈ tr.take j, x.2 = .new f) → False := by
    rintro hb ⟨x, hx, hxe⟩
    have h2 := hen.2
    rw [hb] at h2
    exact h2 x hx hxe
  -- what `a` had
  have ha : Owned (tr.take j) i (f, c) ∨ (f, c) ∈ (R a.1 (tr.take j)).know := by
    rcases hcm with ⟨h1, _⟩ | ⟨h1 | ⟨_, _, h1⟩, _⟩
    · exact .inl (hown _ h1)
    · exact .inl (hown _ h1)
    · exact .inr (hkeep _ h1)
  have halloc : ∃ x ∈ tr.take j, x.2 = .new f := by
    rcases ha with h1 | h1
    · exact hinv.accessed _ _ h1
    · exact hinv.alloc (f, c) (.th a.1) (.inr h1)
  rcases hcm with ⟨h1, h2⟩ | ⟨h1, h2⟩
  · rcases h2 with (h2 | ⟨_, _, h2⟩) | ⟨_, _, h2⟩
    · exact hnew h2 halloc
    · exact hfin (hinv.known _ i (.th b.1) (hown _ h1) (.inl h2))
    · exact hfin (hinv.known _ i (.th b.1) (hown _ h1) (.inr h2))
  · rcases h2 with h2 | ⟨_, _, h2⟩
    · exact hnew h2 halloc
    · rcases ha with h3 | h3
      · exact hfin (hinv.known _ i (.th b.1) h3 (.inl h2))
      · exact hinv.excl _ (.th b.1) (.th a.1) h2 h3

/-! ### The programs keep to the permissions -/

structure Res.le (r r' : Res) : Prop where
  own : r.own ⊆ r'.own
  know : r.know ⊆ r'.know
  opened : r.opened ⊆ r'.opened

theorem Res.le.refl (r : Res) : r.le r := ⟨fun _ h => h, fun _ h => h, fun _ h => h⟩

theorem Res.le.trans {a b c : Res} (h : a.le b) (h' : b.le c) : a.le c :=
  ⟨fun _ x => h'.own (h.own x), fun _ x => h'.know (h.know x), fun _ x => h'.opened (h.opened x)⟩

theorem less_mono {x y z : List Piece} (h : x ⊆ y) : less x z ⊆ less y z := fun p hp => by
  rw [mem_less] at hp ⊢; exact ⟨h hp.1, hp.2⟩

theorem app_mono {α} {x y z : List α} (h : x ⊆ y) : z ++ x ⊆ z ++ y := fun p hp => by
  rcases List.mem_append.1 hp with hp | hp
  · exact List.mem_append_left _ hp
  · exact List.mem_append_right _ (h hp)

theorem cons_mono {α} {x y : List α} {a : α} (h : x ⊆ y) : a :: x ⊆ a :: y := app_mono (z := [a]) h

theorem upd_mono {r r' : Res} (h : r.le r') (o : Op) : (upd r o).le (upd r' o) := by
  cases o <;> exact ⟨by first | exact h.own | exact app_mono h.own | exact less_mono h.own,
    by first | exact h.know | exact app_mono h.know | exact cons_mono h.know,
    by first | exact h.opened | exact cons_mono h.opened⟩

theorem has_mono {r r' : Res} (h : r.le r') {p : Piece} (hp : Has r p) : Has r' p := hp.imp (fun x => h.own x) (fun x => h.know x)

theorem may_mono {r r' : Res} (h : r.le r') {m : Mode} {f : Field} (hp : may r m f) : may r' m f := by
  simp only [may] at hp ⊢
  cases hcl : cls f <;> cases m <;> simp only [hcl] at hp ⊢ <;>
    first
    | exact hp.imp (has_mono h) (has_mono h)
    | exact ⟨h.own hp.1, h.own hp.2⟩
    | exact ⟨h.own hp.1, h.own hp.2.1, h.own hp.2.2⟩
    | exact has_mono h hp
    | exact h.own hp

theorem permits_mono {r r' : Res} (h : r.le r') {o : Op} (hp : permits r o) : permits r' o := by
  cases o with
  | new => trivial
  | acc m f => exact may_mono h hp
  | acq l => exact h.opened hp
  | rel l => exact ⟨h.opened hp.1, fun _ x => h.own (hp.2 x)⟩
  | fork t k => exact ⟨fun _ x => h.own (hp.1 x), fun _ x => h.know (hp.2.1 x), fun _ x => h.opened (hp.2.2 x)⟩
  | send m => exact ⟨fun _ x => h.own (hp.1 x), fun _ x => h.know (hp.2 x)⟩
  | recv m => trivial
  | open_ l => exact fun _ x => h.own (hp x)
  | freeze f => exact h.own hp

theorem after_mono {r r' : Res} (h : r.le r') (os : List Op) : (after r os).le (after r' os) := by
  induction os generalizing r r' with
  | nil => exact h
  | cons o os ih => exact ih (upd_mono h o)

theorem ok_mono {r r' : Res} (h : r.le r') {os : List Op} (hp : Ok r os) : Ok r' os := by
  induction os generalizing r r' with
  | nil => trivial
  | cons o os ih => exact ⟨permits_mono h hp.1, ih (upd_mono h o) hp.2⟩

/-- What is known stays known. -/
theorem after_grows (r : Res) (os : List Op) : r.know ⊆ (after r os).know ∧ r.opened ⊆ (after r os).opened := by
  induction os generalizing r with
  | nil => exact ⟨fun _ h => h, fun _ h => h⟩
  | cons o os ih =>
    refine ⟨fun _ h => (ih (upd r o)).1 ?_, fun _ h => (ih (upd r o)).2 ?_⟩ <;> cases o <;>
      simp only [upd, List.mem_append, List.mem_cons] <;> simp [h]

end KP2P.Races

import Verif.Proof.ChainLink
import Verif.Props.ApplicatorLive
/-!
# C111: with an honest chain no block is forgotten
-/

namespace KP2P
open Link

/-! ## C111, safety -/

/-- C111, what holds: when everything has settled, every block that still waits lacks its parent: the chain has not accepted a
block with the parent's id at a height that fits. Assumed of the execution (`Calm`): no application of an accepted block ended
with an error while a child of it waited, no block was taken in again while an application of it that had come too early was
left over, and blocks for which such an application was left over when their parent was reported were recent then. Each assumption is needed: `C111_lost_reply_refuted`, `C111_leftover_refuted`,
`C111_old_block_refuted`. -/
theorem C111_not_forgotten_partial {o : AppOpts} {s : Link.State} {b : Blk} (ho : GoodOpts o) (h : Reach o (Calm o) s)
    (hs : Settled s) (hw : App.Waiting s.app b) (hone : OnlyOne s.app.log b) (hov : s.app.highest.toNat + 1 < 2 ^ 64)
    (height : UInt64) (hacc : (b.previous, height) ∈ s.accepted) : height.toNat + 1 < b.height.toNat := by
  by_contra hn
  rcases reach_kept ho h hov b hw hone height hacc (by omega) with ⟨m, h1⟩ | (h1 | ⟨t, h1⟩) | ⟨a, h1, _⟩ | ⟨⟨f, h1⟩, _⟩ | ⟨a, h1, _⟩
  · rw [hs.news] at h1; cases h1
  · rw [hs.app.tries] at h1; cases h1
  · rw [hs.app.retries] at h1; cases h1
  · rw [hs.app.apps] at h1; cases h1
  · rw [hs.app.tries] at h1; cases h1
  · rw [hs.app.apps] at h1; cases h1

/-! ## C111, in the end -/

namespace Link

theorem eventually_const (f : Nat → Nat) (h : ∀ n, f (n + 1) ≤ f n) : ∃ N, ∀ n, N ≤ n → f (n + 1) = f n := by
  have anti : ∀ n m, n ≤ m → f m ≤ f n := by
    intro n m hm
    induction m, hm using Nat.le_induction with
    | base => exact Nat.le_refl _
    | succ m hm ih => exact Nat.le_trans (h m) ih
  have key : ∀ k n, f n ≤ k → ∃ N, ∀ n, N ≤ n → f (n + 1) = f n := by
    intro k
    induction k with
    | zero => intro n hn; exact ⟨n, fun m hm => by have := anti n m hm; have := anti n (m + 1) (by omega); omega⟩
    | succ k ih =>
      intro n hn
      by_cases hex : ∃ m, n ≤ m ∧ f m ≤ k
      · obtain ⟨m, _, hm⟩ := hex; exact ih m hm
      · refine ⟨n, fun m hm => ?_⟩
        have h1 : ∀ m, n ≤ m → f m = k + 1 := fun m hm => by
          have := anti n m hm
          have : ¬ f m ≤ k := fun hk => hex ⟨m, hm, hk⟩
          omega
        rw [h1 m hm, h1 (m + 1) (by omega)]
  exact key (f 0) 0 (Nat.le_refl _)

/-- How many of these ids are not accepted. -/
def missing (ids : List Bytes) (s : State) : Nat := (ids.filter fun i => ! decide (Has s i)).length

theorem hung_step {o : AppOpts} {s s' : State} {l : Label} (hq : Quiet l) (hst : step o s l = some s') :
    s'.app.hung = s.app.hung := by
  cases l with
  | accept id prev n => obtain ⟨_, _, rfl⟩ := step_accept hst; rfl
  | deliver i =>
    obtain ⟨id, n, a, hn, ha, rfl⟩ := step_deliver hst
    obtain ⟨_, rfl⟩ := App.step_broadcast ha
    rw [App.handleBroadcast_eq]
  | act l => obtain ⟨a, ha, rfl, _⟩ := step_act hst; exact (quiet_frame hq ha).1

theorem accepted_mono {o : AppOpts} {s s' : State} {l : Label} (hst : step o s l = some s') {id : Bytes} (h : Has s id) :
    Has s' id := by
  cases l with
  | accept i prev n => obtain ⟨_, _, rfl⟩ := step_accept hst; obtain ⟨m, hm⟩ := h; exact ⟨m, List.mem_cons_of_mem _ hm⟩
  | deliver i => obtain ⟨_, n, a, hn, ha, rfl⟩ := step_deliver hst; exact h
  | act l => obtain ⟨a, ha, rfl, _⟩ := step_act hst; exact h

theorem filter_length_lt {α : Type} {l : List α} {p q : α → Bool} (hpq : ∀ x, q x = true → p x = true) {a : α} (ha : a ∈ l)
    (hp : p a = true) (hq : q a = false) : (l.filter q).length < (l.filter p).length := by
  induction l with
  | nil => cases ha
  | cons x l ih =>
    have hle : (l.filter q).length ≤ (l.filter p).length := by
      rw [← List.countP_eq_length_filter, ← List.countP_eq_length_filter]
      exact List.countP_mono_left (fun x _ h => hpq x h)
    rcases List.mem_cons.1 ha with rfl | ha
    · rw [List.filter_cons, List.filter_cons, hp, hq]; simp only [if_true, Bool.false_eq_true, if_false, List.length_cons]; omega
    · have := ih ha
      rw [List.filter_cons, List.filter_cons]
      cases hqx : q x with
      | true => rw [hpq x hqx]; simpa using this
      | false => cases hpx : p x <;> simp <;> omega

theorem eraseIdx_length_lt {α : Type} {l : List α} {i : Nat} {x : α} (h : l[i]? = some x) :
    (l.eraseIdx i).length + 1 = l.length := by
  have := (App.perm_eraseIdx h).length_eq
  rw [this]; rfl

/-- In the end nothing is accepted or announced any more. -/
theorem news_end {o : AppOpts} {σ : Nat → State} {ev : Nat → Label} (hh : (σ 0).app.hung = false) (hf : FairQuiet o σ ev) :
    ∃ N, ∀ n, N ≤ n → (σ n).news = [] ∧ ∃ l, ev n = .act l := by
  have hung : ∀ n, (σ n).app.hung = false := by
    intro n
    induction n with
    | zero => exact hh
    | succ n ih => rw [hung_step (hf.quiet n) (hf.exec n)]; exact ih
  obtain ⟨ids, hids⟩ := hf.finite
  have hpq : ∀ n x, (! decide (Has (σ (n + 1)) x)) = true → (! decide (Has (σ n) x)) = true := by
    intro n x hx
    simp only [Bool.not_eq_true', decide_eq_false_iff_not] at hx ⊢
    exact fun h => hx (accepted_mono (hf.exec n) h)
  obtain ⟨N1, hN1⟩ := eventually_const (fun n => missing ids (σ n)) (fun n => by
    unfold missing
    rw [← List.countP_eq_length_filter, ← List.countP_eq_length_filter]
    exact List.countP_mono_left (fun x _ h => hpq n x h))
  have noacc : ∀ n, N1 ≤ n → ∀ id prev h, ev n ≠ .accept id prev h := by
    intro n hn id prev h he
    have hst := hf.exec n
    rw [he] at hst
    obtain ⟨_, hno, hs⟩ := step_accept hst
    have hlt : missing ids (σ (n + 1)) < missing ids (σ n) :=
      filter_length_lt (hpq n) (hids n id prev h he) (by simpa using hno)
        (by rw [hs]; simp only [Bool.not_eq_false', decide_eq_true_eq]; exact ⟨h, List.mem_cons_self⟩)
    exact absurd (hN1 n hn) (Nat.ne_of_lt hlt)
  have hlen : ∀ n, N1 ≤ n → (σ (n + 1)).news.length ≤ (σ n).news.length ∧
      (∀ i, ev n = .deliver i → (σ (n + 1)).news.length < (σ n).news.length) := by
    intro n hn
    have hst := hf.exec n
    cases he : ev n with
    | accept id prev h => exact absurd he (noacc n hn id prev h)
    | deliver i =>
      rw [he] at hst
      obtain ⟨id, m, a, hi, ha, hs⟩ := step_deliver hst
      have := eraseIdx_length_lt hi
      have h2 : (σ (n + 1)).news.length = ((σ n).news.eraseIdx i).length := by rw [hs]
      exact ⟨by omega, fun _ _ => by omega⟩
    | act l =>
      rw [he] at hst
      obtain ⟨a, ha, hs, _⟩ := step_act hst
      exact ⟨by rw [hs], fun i hi => by cases hi⟩
  obtain ⟨N2, hN2⟩ := eventually_const (fun n => (σ (N1 + n)).news.length) (fun n => (hlen (N1 + n) (Nat.le_add_right _ _)).1)
  have nodel : ∀ n, N1 + N2 ≤ n → ∀ i, ev n ≠ .deliver i := by
    intro n hn i he
    have h1 := (hlen n (by omega)).2 i he
    have h2 := hN2 (n - N1) (by omega)
    rw [show N1 + (n - N1 + 1) = n + 1 by omega, show N1 + (n - N1) = n by omega] at h2
    omega
  refine ⟨N1 + N2, fun n hn => ⟨?_, ?_⟩⟩
  · by_contra hne
    have hsame : ∀ m, n ≤ m → (σ m).news.length = (σ n).news.length := by
      intro m hm
      induction m, hm using Nat.le_induction with
      | base => rfl
      | succ m hm ih =>
        have h2 := hN2 (m - N1) (by omega)
        rw [show N1 + (m - N1 + 1) = m + 1 by omega, show N1 + (m - N1) = m by omega] at h2
        omega
    obtain ⟨m, hm, i, he⟩ := hf.announced n (fun m hm => by
      cases hx : (σ m).news with
      | nil =>
        have := hsame m hm
        rw [hx] at this
        exact absurd (List.length_eq_zero_iff.1 this.symm) hne
      | cons x xs =>
        obtain ⟨id, h⟩ := x
        refine ⟨.deliver 0, ⟨0, rfl⟩, ?_⟩
        simp [step, hx, App.step, hung m])
    exact nodel m (by omega) i he
  · cases he : ev n with
    | accept id prev h => exact absurd he (noacc n (by omega) id prev h)
    | deliver i => exact absurd he (nodel n hn i)
    | act l => exact ⟨l, rfl⟩

/-- A step of the applicator that belongs to a kind is possible for the composition as well. -/
theorem act_enabled {o : AppOpts} {s : State} {k : App.Kind} {x : App.Label} (hk : k.has x)
    (hx : (App.step o s.app x).isSome = true) : ∃ y, (∃ x, y = .act x ∧ k.has x) ∧ (step o s y).isSome = true := by
  cases x with
  | rpcReturn i e =>
    obtain ⟨a, ha⟩ := Option.isSome_iff_exists.1 hx
    obtain ⟨c, hc, rfl⟩ := App.step_rpcReturn ha
    refine ⟨.act (.rpcReturn i (some .ctxDeadline)), ⟨_, rfl, ?_⟩, ?_⟩
    · cases k <;> exact hk
    · have hb : honest s c (some .ctxDeadline) = true := by
        unfold honest
        have : errIs (some Err.ctxDeadline) .unknownPreviousBlock = false := rfl
        rw [this]; simp
      simp [step, hc, hb, App.step]
  | broadcast id h => cases k <;> exact hk.elim
  | _ => exact ⟨.act _, ⟨_, rfl, hk⟩, by simp only [step, Option.isSome_map]; exact hx⟩

end Link

/-- C111: things do settle. If from some moment on no calls and no fork heads come in and only finitely many more blocks are
accepted, in the end nothing is under way any more. -/
theorem C111_settles {o : AppOpts} {P : Link.State → Link.Label → Prop} {σ : Nat → Link.State} {ev : Nat → Link.Label}
    (h0 : Reach o P (σ 0)) (hh : (σ 0).app.hung = false) (hf : FairQuiet o σ ev) (hp : ∀ n, P (σ n) (ev n)) :
    ∃ N, ∀ n, N ≤ n → Settled (σ n) := by
  have hreach : ∀ n, Reach o P (σ n) := by
    intro n
    induction n with
    | zero => exact h0
    | succ n ih => exact .step ih (hp n) (hf.exec n)
  have hung : ∀ n, (σ n).app.hung = false := by
    intro n
    induction n with
    | zero => exact hh
    | succ n ih => rw [hung_step (hf.quiet n) (hf.exec n)]; exact ih
  obtain ⟨N, hN⟩ := news_end hh hf
  -- from here on only the applicator moves
  let lab : Nat → App.Label := fun n => match ev (N + n) with
    | .act l => l
    | _ => .tick 0
  have hlab : ∀ n, ev (N + n) = .act (lab n) := by
    intro n
    obtain ⟨l, hl⟩ := (hN (N + n) (Nat.le_add_right _ _)).2
    simp only [lab, hl]
  have hfq : App.FairQuiet o (fun n => (σ (N + n)).app) lab := by
    refine ⟨fun n => ?_, fun n => ?_, fun T => ?_, fun k n hen => ?_⟩
    · have := hf.exec (N + n)
      rw [hlab] at this
      obtain ⟨a, ha, hs, _⟩ := step_act this
      have e : (σ (N + (n + 1))).app = a := by rw [show N + (n + 1) = N + n + 1 by omega, hs]
      simp only [e, ha]
    · have := hf.quiet (N + n)
      rw [hlab] at this; exact this
    · obtain ⟨m, hm⟩ := hf.time T
      have mono : ∀ n, (σ n).app.now ≤ (σ (n + 1)).app.now := by
        intro n
        have hst := hf.exec n
        have hq := hf.quiet n
        generalize σ (n + 1) = s' at hst ⊢
        generalize ev n = l at hst hq
        cases l with
        | accept id prev h => obtain ⟨_, _, rfl⟩ := step_accept hst; exact Int.le_refl _
        | deliver i =>
          obtain ⟨id, n, a, hn, ha, rfl⟩ := step_deliver hst
          obtain ⟨_, rfl⟩ := App.step_broadcast ha
          rw [App.handleBroadcast_eq]
        | act l => obtain ⟨a, ha, rfl, _⟩ := step_act hst; exact (quiet_frame hq ha).2
      have mono' : ∀ d n, (σ n).app.now ≤ (σ (n + d)).app.now := by
        intro d n
        induction d with
        | zero => exact Int.le_refl _
        | succ d ih => exact Int.le_trans ih (mono (n + d))
      refine ⟨m, Int.le_trans hm ?_⟩
      have := mono' N m
      rw [show N + m = m + N by omega]; exact this
    · obtain ⟨m, hm, x, hx, hkx⟩ := hf.fair k (N + n) (fun m hm => by
        obtain ⟨x, hkx, hx⟩ := hen (m - N) (by omega)
        simp only [show N + (m - N) = m by omega] at hx
        exact act_enabled hkx hx)
      refine ⟨m - N, by omega, ?_⟩
      have := hlab (m - N)
      rw [show N + (m - N) = m by omega, hx] at this
      cases this; exact hkx
  obtain ⟨M, hM⟩ := C90_comes_to_rest (reach_app (hreach N)) (hung N) hfq
  refine ⟨N + M, fun n hn => ?_⟩
  have hrest := (hM (n - N) (by omega)).1
  simp only [show N + (n - N) = n by omega] at hrest
  exact ⟨hrest, (hN n (by omega)).1⟩

/-- C111 in the end: if from some moment on no calls and no fork heads come in and only finitely many more blocks are accepted,
everything settles, and the blocks that still wait lack their parent. The assumptions are those of
`C111_not_forgotten_partial`, along the whole execution. -/
theorem C111_in_the_end_partial {o : AppOpts} {σ : Nat → Link.State} {ev : Nat → Link.Label} (ho : GoodOpts o)
    (h0 : Reach o (Calm o) (σ 0)) (hh : (σ 0).app.hung = false) (hf : FairQuiet o σ ev) (hc : ∀ n, Calm o (σ n) (ev n)) :
    ∃ N, ∀ n, N ≤ n → Settled (σ n) ∧ ∀ b, App.Waiting (σ n).app b → OnlyOne (σ n).app.log b →
      (σ n).app.highest.toNat + 1 < 2 ^ 64 → ∀ height, (b.previous, height) ∈ (σ n).accepted →
      height.toNat + 1 < b.height.toNat := by
  have hreach : ∀ n, Reach o (Calm o) (σ n) := by
    intro n
    induction n with
    | zero => exact h0
    | succ n ih => exact .step ih (hc n) (hf.exec n)
  obtain ⟨N, hN⟩ := C111_settles h0 hh hf hc
  exact ⟨N, fun n hn => ⟨hN n hn, fun b hw hone hov height hacc =>
    C111_not_forgotten_partial ho (hreach n) (hN n hn) hw hone hov height hacc⟩⟩

/-! ## Concrete executions -/

namespace Link

/-! A checker for the assumptions, for concrete executions. -/

def recentB (o : AppOpts) (now : Int) (b : Blk) : Bool :=
  decide (b.timestamp.toNat < 2 ^ 63) && decide (now - b.timestamp.toNat * 1000000 < o.forceChildRequestThreshold)

def repliesB (s : State) : Label → Bool
  | .act (.status i) => match s.app.apps[i]? with
    | some ⟨b, .done (some _)⟩ => !decide (Has s b.id)
    | _ => true
  | _ => true

def leftoverB (s : State) : Label → Bool
  | .act (.newBlock i) => match s.app.newQ[i]? with
    | some (_, b) => decide (b ∈ App.waitingBlocks s.app) || s.app.apps.all fun a => decide (a.blk.id ≠ b.id)
    | _ => true
  | _ => true

def tooEarlyB (s : AState) (b : Blk) : Bool :=
  s.apps.any fun a => decide (a.blk.id = b.id) && match a.stage with
    | .done e => errIs e .unknownPreviousBlock
    | _ => false

def inTimeB (o : AppOpts) (s : State) (l : Label) : Bool :=
  let ok := fun id => (App.waitingBlocks s.app).all fun b => !decide (b.previous = id) || !tooEarlyB s.app b || recentB o s.app.now b
  match l with
  | .deliver i => match s.news[i]? with
    | some (id, _) => ok id
    | none => true
  | .act (.status i) => match s.app.apps[i]? with
    | some ⟨b, .done none⟩ => ok b.id
    | _ => true
  | _ => true

def checked (w : Which) (o : AppOpts) (s : State) : List Label → Option State
  | [] => some s
  | l :: ls =>
    if (!w.replies || repliesB s l) && (!w.leftover || leftoverB s l) && (!w.time || inTimeB o s l) then
      match step o s l with
      | some s' => checked w o s' ls
      | none => none
    else none

theorem checked_sound {w : Which} {o : AppOpts} {s s' : State} {ls : List Label} (h : Reach o (Chosen w o) s)
    (hr : checked w o s ls = some s') : Reach o (Chosen w o) s' := by
  induction ls generalizing s with
  | nil => simp only [checked, Option.some.injEq] at hr; exact hr ▸ h
  | cons l ls ih =>
    simp only [checked] at hr
    split at hr
    · rename_i hb
      split at hr
      · rename_i t hst
        refine ih (.step h ?_ hst) hr
        have hidx := (reach_inv h).inv.idx
        simp only [Bool.and_eq_true, Bool.or_eq_true, Bool.not_eq_true'] at hb
        obtain ⟨⟨h1, h2⟩, h3⟩ := hb
        refine ⟨fun hw => ?_, fun hw => ?_, fun hw => ?_⟩
        · rcases h1 with h1 | h1
          · rw [hw] at h1; cases h1
          · rintro i b e rfl ha hh
            exact absurd hh (by simpa [repliesB, ha] using h1)
        · rcases h2 with h2 | h2
          · rw [hw] at h2; cases h2
          · rintro i r b rfl ha hnw ⟨a, hm, hid, -⟩
            simp only [leftoverB, ha, Bool.or_eq_true, decide_eq_true_eq, List.all_eq_true] at h2
            rcases h2 with h2 | h2
            · exact absurd ((App.mem_waitingBlocks hidx b).1 h2) hnw
            · exact h2 a hm hid
        · rcases h3 with h3 | h3
          · rw [hw] at h3; cases h3
          · have fin : ∀ b id, App.Waiting s.app b → b.previous = id →
                ((App.waitingBlocks s.app).all fun b => !decide (b.previous = id) || !tooEarlyB s.app b ||
                  recentB o s.app.now b) = true →
                TooEarly s.app b → Recent o s.app.now b := by
              rintro b id hwb hp hall ⟨a, ha, hai, e, hst, hun⟩
              have hte : tooEarlyB s.app b = true := by
                refine List.any_eq_true.2 ⟨a, ha, ?_⟩
                simp only [hai, decide_true, hst, hun, Bool.and_self]
              have := List.all_eq_true.1 hall b ((App.mem_waitingBlocks hidx b).2 hwb)
              simp only [hp, hte, decide_true, Bool.not_true, Bool.false_or, recentB, Bool.and_eq_true, decide_eq_true_eq] at this
              exact this
            rintro b hwb (⟨i, m, rfl, hn⟩ | ⟨i, c, rfl, ha, hid⟩)
            · simp only [inTimeB, hn] at h3
              exact fin b _ hwb rfl h3
            · simp only [inTimeB, ha] at h3
              exact fin b _ hwb hid.symm h3
      · cases hr
    · cases hr

theorem chosen_calm {o : AppOpts} {s : State} (h : Reach o (Chosen {} o) s) : Reach o (Calm o) s := by
  induction h with
  | init hi lib now known hk => exact .init hi lib now known hk
  | step _ hp hst ih => exact .step ih ⟨hp.1 rfl, hp.2.1 rfl, hp.2.2 rfl⟩ hst

theorem settled_of {s : State} (h : s.app.newQ = [] ∧ s.app.tries = [] ∧ s.app.retries = [] ∧ s.app.apps = [] ∧
    (∀ r ∈ s.app.waiting, r ∉ App.answered s.app.log) ∧ s.news = []) : Settled s :=
  ⟨⟨h.1, h.2.1, h.2.2.1, h.2.2.2.1, h.2.2.2.2.1⟩, h.2.2.2.2.2⟩

/-- The chain has accepted block 8 (height 9). -/
def exL0 : State := init 10 5 0 [([8], 9)]
/-- A block whose parent is not accepted yet. -/
def exLB : Blk := ⟨[1], [0], 11, 0, [], []⟩
/-- Its child. -/
def exLC : Blk := ⟨[2], [1], 12, 0, [], []⟩
/-- A block with a wrong height. -/
def exLW : Blk := ⟨[4], [8], 30, 0, [], []⟩

theorem exL0_reach (o : AppOpts) (P : State → Label → Prop) : Reach o P exL0 := .init 10 5 0 _ (by decide)

/-- Where a checked run ends. -/
def endOf (w : Which) (ls : List Label) : State := (checked w {} exL0 ls).getD exL0

theorem endOf_reach {w : Which} {ls : List Label} (h : (checked w {} exL0 ls).isSome = true) :
    Reach {} (Chosen w {}) (endOf w ls) := by
  obtain ⟨s, hs⟩ := Option.isSome_iff_exists.1 h
  unfold endOf
  rw [hs]
  exact checked_sound (exL0_reach _ _) hs

theorem onlyOne_of {log : List Obs} {b : Blk} (h : log.all (fun x => match x with
    | .call _ c => decide (c.id = b.id → c = b)
    | _ => true) = true) : OnlyOne log b := by
  rintro c ⟨r, hc⟩ hid
  have := List.all_eq_true.1 h _ hc
  simp only [decide_eq_true_eq] at this
  exact this hid

/-- The block is submitted too early; while the verdict is under way its parent is accepted and announced; the wake-up is
repeated until the application has ended, and the block is accepted. The child and a block of a wrong height wait. -/
def exLRun : List Label :=
  [.act (.applyBlock exLB), .act (.newBlock 0), .act (.tryBlock 0), .act (.work 0),
   .act (.rpcReturn 0 (some (.sentinel .unknownPreviousBlock))), .accept [0] [8] 10, .deliver 0, .act (.tryBlock 0),
   .act (.status 0), .act (.tick 50000000), .act (.retryDue 0), .act (.applyBlock exLW), .act (.newBlock 0),
   .act (.tryBlock 0), .act (.work 0), .accept [1] [0] 11, .act (.rpcReturn 0 none), .act (.status 0), .deliver 0,
   .act (.callerReturns 0)]

def exLEnd : State := endOf {} exLRun

theorem exLEnd_reach : Reach {} (Calm {}) exLEnd := chosen_calm (endOf_reach (by decide +kernel))

theorem exLEnd_settled : Settled exLEnd := settled_of (by decide +kernel)

example : App.Waiting exLEnd.app exLW ∧ Has exLEnd [1] ∧ (exLW.previous, 9) ∈ exLEnd.accepted ∧
    exLEnd.app.highest.toNat + 1 < 2 ^ 64 ∧ GoodOpts {} ∧ OnlyOne exLEnd.app.log exLW :=
  ⟨⟨⟨exLW, [1]⟩, by decide +kernel, rfl⟩, by decide +kernel, by decide +kernel, by decide +kernel,
    ⟨by decide, by decide⟩, onlyOne_of (by decide +kernel)⟩

/-- The block that was submitted too early was applied in the end. -/
example : Obs.status exLB none ∈ exLEnd.app.log ∧
    Obs.status exLB (some (.sentinel .unknownPreviousBlock)) ∈ exLEnd.app.log := by decide +kernel

/-! An execution that satisfies the assumptions of `C111_in_the_end_partial`: from the end of the run on only time passes. -/

def exLσ (n : Nat) : State := { exLEnd with app := { exLEnd.app with now := exLEnd.app.now + n } }

example : FairQuiet {} exLσ (fun _ => .act (.tick 1)) ∧ (∀ n, Calm {} (exLσ n) (.act (.tick 1))) ∧
    (exLσ 0).app.hung = false := by
  have hrest : App.AtRest exLEnd.app := exLEnd_settled.app
  have hnews : exLEnd.news = [] := exLEnd_settled.news
  have hlift : ∀ n, Settled (exLσ n) := fun n =>
    ⟨⟨hrest.newQ, hrest.tries, hrest.retries, hrest.apps, hrest.callers⟩, hnews⟩
  refine ⟨⟨?_, fun _ => trivial, ⟨[], by rintro _ _ _ _ ⟨⟩⟩, ?_, ?_, ?_⟩, fun n => ⟨?_, ?_, ?_⟩, by decide +kernel⟩
  · intro n
    simp only [step, App.step, exLσ, Option.map_some]
    congr 3
  · intro T
    refine ⟨(T - exLEnd.app.now).toNat, ?_⟩
    simp only [exLσ]; omega
  · intro n hen
    obtain ⟨x, ⟨i, rfl⟩, hx⟩ := hen n (Nat.le_refl _)
    simp [step, (hlift n).news] at hx
  · intro k n hen
    exfalso
    obtain ⟨x, ⟨y, rfl, hk⟩, hx⟩ := hen n (Nat.le_refl _)
    obtain ⟨t, ht⟩ := Option.isSome_iff_exists.1 hx
    obtain ⟨a, ha, _⟩ := step_act ht
    have hfq := fairQuiet_of_run (o := {}) (s := (exLσ n).app) (ls := []) rfl (by simp) (hlift n).app
    -- at rest no step of a kind is possible
    have hno : ∀ m, ∃ x, k.has x ∧ (App.step {} (thenTicks {} (exLσ n).app [] m) x).isSome = true := by
      intro m
      have e : thenTicks {} (exLσ n).app [] m = (exLσ (n + m)).app := by
        have := (thenTicks_exec (o := {}) (s := (exLσ n).app) (ls := []) rfl).2 m
        rw [List.length_nil, Nat.zero_add] at this
        rw [this]
        simp only [exLσ]
        congr 1
        push_cast; omega
      rw [e]
      obtain ⟨x, ⟨y, rfl, hk⟩, hx⟩ := hen (n + m) (by omega)
      obtain ⟨t, ht⟩ := Option.isSome_iff_exists.1 hx
      obtain ⟨a, ha, _⟩ := step_act ht
      exact ⟨y, hk, by rw [ha]; rfl⟩
    obtain ⟨m, _, hm⟩ := hfq.fair k 0 (fun m _ => hno m)
    simp only [List.getD_nil] at hm
    cases k <;> exact hm
  · rintro i b e ⟨⟩
  · rintro i r b ⟨⟩
  · rintro b _ (⟨i, h, ⟨⟩, _⟩ | ⟨i, c, ⟨⟩, _⟩)

end Link

/-! ## C111 without the assumptions -/

def exLLost : List Link.Label :=
  [.accept [0] [8] 10, .deliver 0, .act (.applyBlock exLB), .act (.newBlock 0), .act (.tryBlock 0), .act (.work 0),
   .accept [1] [0] 11, .deliver 0, .act (.applyBlock exLC), .act (.newBlock 0), .act (.rpcReturn 0 (some .ctxDeadline)),
   .act (.status 0), .act (.callerReturns 0)]

/-- A reply that gets lost: the chain accepts the parent and announces it, the child arrives and is put aside because its parent
is being applied, then the call to the chain times out. The parent is answered with an error, and nothing wakes the child. -/
theorem C111_lost_reply_refuted :
    ¬ ∀ (o : AppOpts) (s : Link.State) (b : Blk), GoodOpts o → Reach o (Chosen { replies := false } o) s → Settled s →
      App.Waiting s.app b → OnlyOne s.app.log b → s.app.highest.toNat + 1 < 2 ^ 64 →
      ∀ height, (b.previous, height) ∈ s.accepted → height.toNat + 1 < b.height.toNat := by
  intro hall
  have := hall {} (endOf { replies := false } exLLost) exLC ⟨by decide, by decide⟩ (endOf_reach (by decide +kernel))
    (settled_of (by decide +kernel))
    ⟨⟨exLC, [1]⟩, by decide +kernel, rfl⟩ (onlyOne_of (by decide +kernel)) (by decide +kernel) 11 (by decide +kernel)
  exact absurd this (by decide)

def exLTwice : List Link.Label :=
  [.act (.applyBlock exLB), .act (.applyBlock exLB), .act (.newBlock 0), .act (.newBlock 0), .act (.tryBlock 0), .act (.work 0),
   .act (.rpcReturn 0 (some .ctxDeadline)), .act (.status 0), .act (.callerReturns 0), .act (.callerReturns 1),
   .act (.tryBlock 0), .act (.work 0), .act (.rpcReturn 0 (some (.sentinel .unknownPreviousBlock))),
   .accept [0] [8] 10, .deliver 0, .act (.applyBlock exLB), .act (.newBlock 0), .act (.tryBlock 0), .act (.status 0)]

/-- A left-over application: a block is handed over twice, and its first application fails; the second wake-up starts another
one, for which nobody waits, and which finds the parent missing. Then the parent is accepted and announced, and the block is
handed over a third time: its wake-up is dropped because an application is running, and when that one ends the block stays. -/
theorem C111_leftover_refuted :
    ¬ ∀ (o : AppOpts) (s : Link.State) (b : Blk), GoodOpts o → Reach o (Chosen { leftover := false } o) s → Settled s →
      App.Waiting s.app b → OnlyOne s.app.log b → s.app.highest.toNat + 1 < 2 ^ 64 →
      ∀ height, (b.previous, height) ∈ s.accepted → height.toNat + 1 < b.height.toNat := by
  intro hall
  have := hall {} (endOf { leftover := false } exLTwice) exLB ⟨by decide, by decide⟩ (endOf_reach (by decide +kernel))
    (settled_of (by decide +kernel))
    ⟨⟨exLB, [2]⟩, by decide +kernel, rfl⟩ (onlyOne_of (by decide +kernel)) (by decide +kernel) 10 (by decide +kernel)
  exact absurd this (by decide)

def exLOld : List Link.Label :=
  [.act (.tick 60000000000), .act (.applyBlock exLB), .act (.newBlock 0), .act (.tryBlock 0), .act (.work 0),
   .act (.rpcReturn 0 (some (.sentinel .unknownPreviousBlock))), .accept [0] [8] 10, .deliver 0, .act (.tryBlock 0),
   .act (.status 0)]

/-- An old block: the parent is accepted and announced while the verdict on the block is under way; the wake-up is not forced
because the block is older than the threshold, is dropped, and the block stays. -/
theorem C111_old_block_refuted :
    ¬ ∀ (o : AppOpts) (s : Link.State) (b : Blk), GoodOpts o → Reach o (Chosen { time := false } o) s → Settled s →
      App.Waiting s.app b → OnlyOne s.app.log b → s.app.highest.toNat + 1 < 2 ^ 64 →
      ∀ height, (b.previous, height) ∈ s.accepted → height.toNat + 1 < b.height.toNat := by
  intro hall
  have := hall {} (endOf { time := false } exLOld) exLB ⟨by decide, by decide⟩ (endOf_reach (by decide +kernel))
    (settled_of (by decide +kernel))
    ⟨⟨exLB, [0]⟩, by decide +kernel, rfl⟩ (onlyOne_of (by decide +kernel)) (by decide +kernel) 10 (by decide +kernel)
  exact absurd this (by decide)

end KP2P

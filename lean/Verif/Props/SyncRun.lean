import Verif.Proof.SyncRun
import Verif.Props.CatchUp
import Verif.Props.ApplicatorMore
/-!
# C132: in the end our chain has the blocks of an honest peer

The session of `Model/SyncRun.lean`, step by step, together with the applicator, the chain and other callers.
-/

namespace KP2P
open KP2P.PeerConn KP2P.PeerRPC KP2P.Peering KP2P.Spec.PeerConn KP2P.Spec.Peering KP2P.Spec.CatchUp KP2P.Link KP2P.SyncRun KP2P.Spec.SyncRun

/-- C132. A round that goes step by step is the round of C38–C41 with the same answers and results: when it is over, the same blocks have
been handed over, and it has ended well under the same circumstances; and it has crashed only if that one crashes. -/
theorem C132_stepwise {o : Opts} {ao : AppOpts} {s : SyncRun.State} (h : Reached o ao s) (e : SyncEnv) (he : s.env = some e)
    (a : Nat → RawBlock → Option Err) (ha : ∀ (j : Nat) (b : RawBlock) (r : Option Err), s.results[j]? = some (b, r) → a j b = r) (synced : Bool) :
    let r := requestSyncBlocks o { e with apply := a } synced
    (s.phase = .idle → applied r.calls = s.results.map Prod.fst ∧ r.out ≠ .panic ∧
      (r.out = .ok ↔ (requestSyncBlocks o { e with apply := fun _ _ => none } synced).out = .ok ∧ ∀ x ∈ s.results, GoesOn x.2)) ∧
    (s.phase = .crashed → r.out = .panic) := by
  obtain ⟨hhd, ht⟩ := tally h e he
  obtain ⟨pre, hpre, hshape⟩ := sync_shape o e
  have happ : ∀ cs, applied (pre ++ cs) = applied cs := fun cs => by
    simp only [applied, List.filterMap_append] at hpre ⊢; rw [hpre]; rfl
  have hplan : plan o e = applied (requestSyncBlocks o { e with apply := fun _ _ => none } false).calls := rfl
  have hwell : (allWell o e).out = (requestSyncBlocks o { e with apply := fun _ _ => none } false).out := rfl
  rcases hshape with ⟨out, hout, hs⟩ | ⟨bs, hs⟩
  · -- no blocks came
    rw [(hs _ _).1, hpre] at hplan
    rw [(hs _ _).2] at hwell
    simp only [(hs _ _).1, (hs _ _).2, hpre]
    refine ⟨fun hp => ?_, fun hp => ?_⟩
    · rw [hp] at ht
      rcases ht with ⟨hr, _, hg⟩ | ⟨old, b, r, rest, _, hr, _⟩
      · rw [hplan] at hr
        exact ⟨hr, hout, fun h => ⟨h, fun x hx => (goesOn_iff _).1 (hg x hx)⟩, fun h => h.1⟩
      · rw [hplan] at hr; simp at hr
    · rw [hp] at ht
      rcases ht with ⟨_, _, hr⟩ | ⟨b, todo, hr, _⟩
      · rw [hwell] at hr; exact absurd hr hout
      · rw [hplan] at hr; simp at hr
  · rw [(hs _ _).1, happ] at hplan
    rw [(hs _ _).2] at hwell
    simp only [(hs _ _).1, (hs _ _).2, happ]
    have hres : ∀ j b, (s.results.map Prod.fst)[j]? = some b → (∀ x ∈ s.results, goesOn x.2 = true) → goesOn (a j b) = true := by
      intro j b hj hg
      rw [List.getElem?_map, Option.map_eq_some_iff] at hj
      obtain ⟨x, hx, rfl⟩ := hj
      rw [ha j x.1 x.2 hx]
      exact hg x (List.mem_of_getElem? hx)
    refine ⟨fun hp => ?_, fun hp => ?_⟩
    · rw [hp] at ht
      rcases ht with ⟨hr, hne, hg⟩ | ⟨old, b, r, rest, hres', hr, hstop, hg⟩
      · have hall : applyLoop a 0 bs = applyLoop (fun _ _ => none) 0 bs := by
          refine applyLoop_all a bs 0 fun j b hj _ => ?_
          rw [← hplan, hr] at hj
          rw [Nat.zero_add]; exact hres j b hj hg
        rw [hall, ← hplan]
        refine ⟨hr, ?_, fun h => ⟨h, fun x hx => (goesOn_iff _).1 (hg x hx)⟩, fun h => h.1⟩
        rw [← hwell]
        intro hpanic
        by_cases hemp : plan o e = []
        · exact hne hemp hpanic
        · -- a panic means a block without header
          rw [hwell] at hpanic
          have hheads : ∀ (bs : List RawBlock) (i : Nat), (∀ b ∈ applied (applyLoop (fun _ _ => none) i bs).1, b.header.isSome = true) →
              (applyLoop (fun _ _ => none) i bs).2 = .ok ∧ applied (applyLoop (fun _ _ => none) i bs).1 = bs := by
            intro bs
            induction bs with
            | nil => intro i _; exact ⟨rfl, rfl⟩
            | cons c bs ih =>
              intro i hall
              obtain ⟨cs, hcs⟩ := applyLoop_cons (fun _ _ => none) i c bs
              have hc : c.header.isSome = true := hall c (by rw [hcs]; exact List.mem_cons_self)
              have e : applyLoop (fun _ _ => none) i (c :: bs) = (.applyBlock c :: (applyLoop (fun _ _ => none) (i + 1) bs).1,
                (applyLoop (fun _ _ => none) (i + 1) bs).2) := applyLoop_next hc rfl
              rw [e] at hall ⊢
              obtain ⟨h1, h2⟩ := ih (i + 1) fun b hb => hall b (List.mem_cons_of_mem _ hb)
              exact ⟨h1, by show c :: applied _ = _; rw [h2]⟩
          obtain ⟨h1, h2⟩ := hheads bs 0 fun b hb => by
            rw [← hplan, hr] at hb
            obtain ⟨x, hx, rfl⟩ := List.mem_map.1 hb
            exact hhd x hx
          rw [h1] at hpanic
          rw [h2] at hplan
          have hbs : bs ≠ [] := fun h => hemp (by rw [hplan, h])
          simp only [closing, List.getLast?_eq_getLast_of_ne_nil hbs] at hpanic
          have hl : (bs.getLast hbs).header.isSome = true := by
            have hm : bs.getLast hbs ∈ s.results.map Prod.fst := (hplan ▸ hr : bs = _) ▸ List.getLast_mem hbs
            obtain ⟨x, hx, hxe⟩ := List.mem_map.1 hm
            rw [← hxe]
            exact hhd x hx
          obtain ⟨hdr, hdr'⟩ := Option.isSome_iff_exists.1 hl
          rw [hdr'] at hpanic
          cases hpanic
      · obtain ⟨h1, x, h2⟩ := applyLoop_stop a bs 0 (old.map Prod.fst) b rest (hhd (b, r) (by rw [hres']; simp)) (by rw [← hplan]; exact hr)
          (fun j c hj => by
            rw [List.getElem?_map, Option.map_eq_some_iff] at hj
            obtain ⟨x, hx, rfl⟩ := hj
            rw [Nat.zero_add, ha j x.1 x.2 (by rw [hres', List.getElem?_append_left (List.getElem?_eq_some_iff.1 hx).1]; exact hx)]
            exact hg x (List.mem_of_getElem? hx))
          (by rw [Nat.zero_add, List.length_map, ha old.length b r (by rw [hres']; simp)]; exact hstop)
        rw [h1, h2]
        refine ⟨by rw [hres']; simp, (by rintro ⟨⟩), fun h => (by cases h), fun h => ?_⟩
        have := (goesOn_iff r).2 (h.2 (b, r) (by rw [hres']; simp))
        rw [hstop] at this; cases this
    · rw [hp] at ht
      rcases ht with ⟨hr, hr', hw⟩ | ⟨b, todo, hr, hb, hg⟩
      · cases bs with
        | nil => rfl
        | cons c bs =>
          obtain ⟨cs, hcs⟩ := applyLoop_cons (fun _ _ => none) 0 c bs
          rw [← hplan, hr] at hcs; cases hcs
      · obtain ⟨rfl, h2⟩ := applyLoop_panic bs 0 _ b todo hb (by rw [← hplan]; exact hr)
        have hall : applyLoop a 0 bs = applyLoop (fun _ _ => none) 0 bs := by
          refine applyLoop_all a bs 0 fun j c hj hc => ?_
          rw [← hplan, hr] at hj
          rw [Nat.zero_add]
          rcases Nat.lt_or_ge j (s.results.map Prod.fst).length with hlt | hge
          · rw [List.getElem?_append_left hlt] at hj; exact hres j c hj hg
          · rw [List.getElem?_append_right hge] at hj
            have : c = b := by
              rcases hk : j - (s.results.map Prod.fst).length with _ | k
              · rw [hk] at hj; cases hj; rfl
              · rw [hk] at hj; cases hj
            rw [this, hb] at hc; cases hc
        rw [hall, h2]; rfl

/-! ### The whole node over time -/

theorem sync_link_step {o : Opts} {ao : AppOpts} {s s' : SyncRun.State} {l : SyncRun.Label} (h : SyncRun.step o ao s l = some s') :
    s'.link = s.link ∨ (∃ x, l = .hand ∧ Link.step ao s.link (.act (.applyBlock x)) = some s'.link) ∨
      ∃ l', l = .sys l' ∧ Link.step ao s.link l' = some s'.link := by
  cases l with
  | ask e =>
    simp only [SyncRun.step] at h
    split at h
    · split at h <;> (cases h; exact Or.inl rfl)
    · cases h
  | hand =>
    simp only [SyncRun.step] at h
    split at h
    · split at h
      · cases h; exact Or.inl rfl
      · rename_i x _
        split at h
        · rename_i t ht
          cases h
          exact Or.inr (Or.inl ⟨x, rfl, ht⟩)
        · cases h
    · cases h
  | back r =>
    simp only [SyncRun.step] at h
    split at h
    · split at h
      · cases h; exact Or.inl rfl
      · cases h
    · cases h
  | finish =>
    simp only [SyncRun.step] at h
    split at h
    · cases h; exact Or.inl rfl
    · cases h
  | sys l =>
    simp only [SyncRun.step, Option.map_eq_some_iff] at h
    obtain ⟨t, ht, rfl⟩ := h
    exact Or.inr (Or.inr ⟨l, rfl, ht⟩)

private theorem fit_call {S : Blk → Prop} {ao : AppOpts} {s : Link.State} {x : Blk} (h : Truthful S s) : Fit S ao s (.act (.applyBlock x)) := by
  refine ⟨h, fun b _ _ hr => ?_⟩
  rcases hr with ⟨i, n, hl, _⟩ | ⟨i, c, hl, _⟩ <;> cases hl

/-- What is assumed of the execution, in the proof. -/
private structure Run (o : Opts) (ao : AppOpts) (S : Blk → Prop) (σ : Nat → SyncRun.State) (ev : Nat → SyncRun.Label) : Prop where
  fair : Fair o ao σ ev
  reach : Reach ao (Fit S ao) (σ 0).link
  truth : ∀ n, Truthful S (σ n).link
  fit : ∀ n l, ev n = .sys l → Fit S ao (σ n).link l
  clean : ∀ n, Clean S (σ n).link.app.log
  hung : ∀ n, (σ n).link.app.hung = false
  room : ∀ n, (σ n).link.app.highest.toNat + 1 < 2 ^ 64
  patient : ∀ (n r : Nat) (b : RawBlock) (todo : List RawBlock), (σ n).phase = .waiting r b todo →
    Obs.returned r (some (.sentinel .blockApplicationTimeout)) ∉ (σ n).link.app.log

variable {o : Opts} {ao : AppOpts} {S : Blk → Prop} {σ : Nat → SyncRun.State} {ev : Nat → SyncRun.Label}

private theorem Run.reached (h : Run o ao S σ ev) (n : Nat) : Reach ao (Fit S ao) (σ n).link := by
  induction n with
  | zero => exact h.reach
  | succ n ih =>
    rcases sync_link_step (h.fair.exec n) with he | ⟨x, _, hx⟩ | ⟨l, hl, hx⟩
    · rw [he]; exact ih
    · exact .step ih (fit_call (h.truth n)) hx
    · exact .step ih (h.fit n l hl) hx

private theorem Run.log (h : Run o ao S σ ev) {n m : Nat} (hm : n ≤ m) (x : Obs) (hx : x ∈ (σ n).link.app.log) : x ∈ (σ m).link.app.log := by
  induction hm with
  | refl => exact hx
  | @step m hm ih =>
    have grows : ∀ l, Link.step ao (σ m).link l = some (σ (m + 1)).link → x ∈ (σ (m + 1)).link.app.log := by
      intro l hst
      have hinv := (reach_inv (h.reached m)).inv
      generalize (σ (m + 1)).link = t at hst ⊢
      cases l with
      | accept id prev n => obtain ⟨_, _, rfl⟩ := step_accept hst; exact ih
      | deliver i => obtain ⟨_, n, a, hn, ha, rfl⟩ := step_deliver hst; exact KP2P.log_grows hinv ha x ih
      | act l => obtain ⟨a, ha, rfl, _⟩ := step_act hst; exact KP2P.log_grows hinv ha x ih
    rcases sync_link_step (h.fair.exec m) with he | ⟨y, _, hy⟩ | ⟨l, hl, hy⟩
    · rw [he]; exact ih
    · exact grows _ hy
    · exact grows _ hy

private theorem Run.has (h : Run o ao S σ ev) {n m : Nat} (hm : n ≤ m) {id : Bytes} (hx : Has (σ n).link id) : Has (σ m).link id := by
  induction hm with
  | refl => exact hx
  | @step m hm ih =>
    rcases sync_link_step (h.fair.exec m) with he | ⟨y, _, hy⟩ | ⟨l, hl, hy⟩
    · rw [he]; exact ih
    · exact accepted_mono hy ih
    · exact accepted_mono hy ih

private theorem Run.upto (h : Run o ao S σ ev) {n m : Nat} (hm : n ≤ m) {c : Chain} {k : Nat} (hx : HasUpto (σ n).link c k) : HasUpto (σ m).link c k :=
  fun j h0 hj => h.has hm (hx j h0 hj)

private theorem phase_stays {s s' : SyncRun.State} {l : SyncRun.Label} (h : SyncRun.step o ao s l = some s') (hl : ¬ Own l) (hp : s.phase ≠ .idle) :
    s'.phase = s.phase := by
  cases l with
  | ask e =>
    simp only [SyncRun.step] at h
    cases hq : s.phase <;> simp only [hq] at h hp
    · exact absurd rfl hp
    all_goals cases h
  | hand => exact absurd trivial hl
  | back r => exact absurd trivial hl
  | finish => exact absurd trivial hl
  | sys l =>
    simp only [SyncRun.step, Option.map_eq_some_iff] at h
    obtain ⟨t, ht, rfl⟩ := h
    rfl

/-- In a phase within a round, the session takes its next step, if it can in the end. -/
private theorem Run.next (h : Run o ao S σ ev) {n : Nat} {p : Phase} (hp : (σ n).phase = p) (hi : p ≠ .idle)
    (hen : (∀ m, n ≤ m → (σ m).phase = p) → (∀ m, n ≤ m → ¬ Own (ev m)) →
      ∃ N, n ≤ N ∧ ∀ m, N ≤ m → ∃ x, Own x ∧ (SyncRun.step o ao (σ m) x).isSome = true) :
    ∃ m, n ≤ m ∧ (σ m).phase = p ∧ Own (ev m) := by
  by_contra hno
  have hno : ∀ m, n ≤ m → (σ m).phase = p → ¬ Own (ev m) := fun m hm hp ho => hno ⟨m, hm, hp, ho⟩
  have hall : ∀ m, n ≤ m → (σ m).phase = p := by
    intro m hm
    induction hm with
    | refl => exact hp
    | @step m hm ih => rw [phase_stays (h.fair.exec m) (hno m hm ih) (by rw [ih]; exact hi)]; exact ih
  obtain ⟨N, hN, hen⟩ := hen hall fun m hm => hno m hm (hall m hm)
  obtain ⟨m, hm, ho⟩ := h.fair.session N hen
  exact hno m (Nat.le_trans hN hm) (hall m (Nat.le_trans hN hm)) ho

private theorem reach_weaker {P Q : Link.State → Link.Label → Prop} (hpq : ∀ s l, P s l → Q s l) {s : Link.State} (h : Reach ao P s) : Reach ao Q s := by
  induction h with
  | init hi lib now known hk => exact .init hi lib now known hk
  | step _ hp hst ih => exact .step ih (hpq _ _ hp) hst

private theorem fit_sub {T : Blk → Prop} (hT : ∀ x, T x → S x) {s : Link.State} {l : Link.Label} (h : Fit S ao s l) : Fit T ao s l :=
  ⟨fun b hb => h.1 b (hT b hb), fun b hb => h.2 b (hT b hb)⟩

/-- A call of the session for the block after those our chain has is over in the end. -/
private theorem Run.served {c : Chain} {M : Nat} (h : Run o ao (Upto c M) σ ev) (ho : GoodOpts ao) (hsound : Sound c M) (hnum : Numbered c M)
    (hroot : ∀ x, (c.blk 1).toBlk = some x → Has (σ 0).link x.previous) {n r k : Nat} {b : RawBlock} {todo : List RawBlock} {x : Blk}
    (hp : (σ n).phase = .waiting r b todo) (hk : k + 1 ≤ M) (hx : (c.blk (k + 1)).toBlk = some x)
    (hcall : Obs.call r x ∈ (σ n).link.app.log) (hup : HasUpto (σ n).link c k) :
    ∃ m, n ≤ m ∧ (σ m).phase = .waiting r b todo ∧ Own (ev m) := by
  refine h.next hp (by rintro ⟨⟩) fun hall hno => ?_
  obtain ⟨N, hN, hquiet, ids, hids⟩ := h.fair.calm n fun m hm => ⟨r, b, todo, hall m hm⟩
  have hsys : ∀ m, n ≤ m → ∃ l, ev m = .sys l := by
    intro m hm
    have hst := h.fair.exec m
    have hno := hno m hm
    cases hl : ev m with
    | sys l => exact ⟨l, rfl⟩
    | ask e => rw [hl] at hst; simp [SyncRun.step, hall m hm] at hst
    | hand => rw [hl] at hno; exact absurd trivial hno
    | back _ => rw [hl] at hno; exact absurd trivial hno
    | finish => rw [hl] at hno; exact absurd trivial hno
  let lab : Nat → Link.Label := fun i => match ev (N + i) with
    | .sys l => l
    | _ => .act (.tick 0)
  have hlab : ∀ i, ev (N + i) = .sys (lab i) := by
    intro i
    obtain ⟨l, hl⟩ := hsys (N + i) (by omega)
    simp only [lab, hl]
  have hlabm : ∀ m, N ≤ m → ev m = .sys (lab (m - N)) := fun m hm => by
    have := hlab (m - N); rwa [show N + (m - N) = m by omega] at this
  have hf : FairQuiet ao (fun i => (σ (N + i)).link) lab := by
    refine ⟨fun i => ?_, fun i => hquiet (N + i) _ (by omega) (hlab i), ⟨ids, fun i id prev g hi => ?_⟩, fun T => ?_, fun i hen => ?_, fun kd i hen => ?_⟩
    · have hst := h.fair.exec (N + i)
      rw [hlab i] at hst
      simp only [SyncRun.step, Option.map_eq_some_iff] at hst
      obtain ⟨t, ht, he⟩ := hst
      rw [ht, show N + (i + 1) = N + i + 1 by omega, ← he]
    · exact hids (N + i) id prev g (by omega) (by rw [hlab i, hi])
    · obtain ⟨m, hm, hT⟩ := h.fair.time T N
      exact ⟨m - N, by simp only [show N + (m - N) = m by omega]; exact hT⟩
    · obtain ⟨m, hm, j, hj⟩ := h.fair.announced (N + i) fun m hm => by
        obtain ⟨y, ⟨j, rfl⟩, hy⟩ := hen (m - N) (by omega)
        exact ⟨j, by rwa [show N + (m - N) = m by omega] at hy⟩
      refine ⟨m - N, by omega, j, ?_⟩
      have := hlabm m (by omega)
      rw [hj] at this; injection this with this; exact this.symm
    · obtain ⟨m, hm, y, hy, hky⟩ := h.fair.rest kd (N + i) fun m hm => by
        obtain ⟨y, ⟨z, rfl, hz⟩, hy⟩ := hen (m - N) (by omega)
        exact ⟨z, hz, by rwa [show N + (m - N) = m by omega] at hy⟩
      refine ⟨m - N, by omega, y, ?_, hky⟩
      have := hlabm m (by omega)
      rw [hy] at this; injection this with this; exact this.symm
  -- the blocks up to this one that were handed over
  let T : Blk → Prop := fun y => Upto c (k + 1) y ∧ App.Known (σ N).link.app.log y
  have hTS : ∀ y, T y → Upto c M y := fun y ⟨⟨j, h0, hj, hy⟩, _⟩ => ⟨j, h0, by omega, hy⟩
  have hcalls : ∀ i y, App.Known (σ (N + i)).link.app.log y → App.Known (σ N).link.app.log y := by
    intro i y
    induction i with
    | zero => exact id
    | succ i ih =>
      rintro ⟨q, hq⟩
      have hst := hf.exec i
      exact ih ⟨q, call_quiet (h.reached (N + i)) (hf.quiet i) hst hq⟩
  have hupN : ∀ i, HasUpto (σ (N + i)).link c k := fun i => h.upto (by omega) hup
  have hhanded : ∀ i, HandedOver T (σ (N + i)).link := by
    intro i
    have hcl := h.clean (N + i)
    have hparent : ∀ y, T y → (∃ p, T p ∧ p.id = y.previous ∧ p.height.toNat + 1 = y.height.toNat) ∨
        ((∀ z e, z.id = y.previous → Obs.status z e ∈ (σ (N + i)).link.app.log → e = none) ∧
          ∃ g, (y.previous, g) ∈ (σ (N + i)).link.accepted ∧ y.height.toNat ≤ g.toNat + 1) := by
      rintro y ⟨⟨j, h0, hj, hy⟩, hky⟩
      have hyh := hnum j h0 (by omega) y hy
      have hyS : Upto c M y := ⟨j, h0, by omega, hy⟩
      rcases Nat.eq_or_lt_of_le (show 1 ≤ j by omega) with rfl | hj1
      · refine Or.inr ⟨?_, ?_⟩
        · rcases hcl.parents y hyS with ⟨p, ⟨i', h0', hi', hp'⟩, _, hph⟩ | hz
          · have := hnum i' h0' hi' p hp'; omega
          · exact hz
        · obtain ⟨g, hg⟩ := h.has (show 0 ≤ N + i by omega) (hroot y hy)
          exact ⟨g, hg, by omega⟩
      · obtain ⟨j, rfl⟩ : ∃ j', j = j' + 1 := ⟨j - 1, by omega⟩
        have hprev := hsound.linked j (by omega) (by omega) y hy
        obtain ⟨p, hp', hpid⟩ := hsound.named j (by omega) (by omega)
        have hph := hnum j (by omega) (by omega) p hp'
        have hpS : Upto c M p := ⟨j, by omega, by omega, hp'⟩
        by_cases hkp : App.Known (σ N).link.app.log p
        · exact Or.inl ⟨p, ⟨⟨j, by omega, by omega, hp'⟩, hkp⟩, by rw [hpid, hprev], by omega⟩
        · refine Or.inr ⟨fun z e hz hst => ?_, ?_⟩
          · have hkz : App.Known (σ (N + i)).link.app.log z := (App.prov_reachable (reach_app (h.reached (N + i)))).good _ hst
            have := hcl.one p hpS z hkz (by rw [hz, hprev, hpid])
            subst this
            exact absurd (hcalls i _ hkz) hkp
          · obtain ⟨g, hg⟩ := hupN i j (by omega) (by omega)
            rw [← hpid] at hg
            have := (h.truth (N + i) p hpS g hg).1
            refine ⟨g, by rw [hprev, ← hpid]; exact hg, ?_⟩
            rw [this]; omega
    refine ⟨⟨fun y hy => hcl.one y (hTS y hy), fun y q e hy => hcl.refused y q e (hTS y hy), fun y q e hy => hcl.admitted y q e (hTS y hy),
      fun y e hy => hcl.willing y e (hTS y hy), fun y hy => hcl.patient y (hTS y hy), fun y hy => ?_⟩, fun y hy => ?_, fun y hy => ?_⟩
    · rcases hparent y hy with hq | ⟨hq, _⟩
      · exact Or.inl hq
      · exact Or.inr hq
    · obtain ⟨q, hq⟩ := hy.2
      exact ⟨q, h.log (by omega) _ hq⟩
    · rcases hparent y hy with hq | ⟨_, hq⟩
      · exact Or.inl hq
      · exact Or.inr hq
  obtain ⟨N', hN'⟩ := C125_in_the_end_partial (S := T) ho (reach_weaker (fun _ _ => fit_sub hTS) (h.reached N)) (h.hung N) hf
    (fun i => fit_sub hTS (h.fit (N + i) _ (hlab i))) ⟨0, fun i _ => hhanded i⟩ (fun i => h.room (N + i))
  have hxT : T x := ⟨⟨k + 1, by omega, Nat.le_refl _, hx⟩, r, h.log hN _ hcall⟩
  refine ⟨N + N', by omega, fun m hm => ?_⟩
  have hm' : m = N + (m - N) := by omega
  have hret := (hN' (m - N) (by omega)).2 x r hxT (by rw [← hm']; exact h.log (by omega) _ hcall)
  rw [← hm'] at hret
  have hph := hall m (by omega)
  rcases hret with hret | hret
  · refine ⟨.back none, trivial, ?_⟩
    have : over (σ m).link.app.log r none = true := decide_eq_true (Or.inl hret)
    simp [SyncRun.step, hph, this]
  · exact absurd hret (h.patient m r b todo hph)

/-- The blocks of heights `k + 1` to `top`. -/
private def seg (c : Chain) (k top : Nat) : List RawBlock := (List.range (top - k)).map fun i => c.blk (k + 1 + i)

private theorem seg_cons (c : Chain) {k top : Nat} (h : k < top) : seg c k top = c.blk (k + 1) :: seg c (k + 1) top := by
  unfold seg
  rw [show top - k = (top - (k + 1)) + 1 by omega, List.range_succ_eq_map, List.map_cons, List.map_map]
  congr 1
  refine List.map_congr_left fun i _ => ?_
  show c.blk (k + 1 + (i + 1)) = c.blk (k + 1 + 1 + i)
  congr 1; omega

/-- A round with blocks of the peer's chain is over in the end, and our chain has the blocks. -/
private theorem Run.round {c : Chain} {M : Nat} (h : Run o ao (Upto c M) σ ev) (ho : GoodOpts ao) (hsound : Sound c M) (hnum : Numbered c M)
    (hroot : ∀ x, (c.blk 1).toBlk = some x → Has (σ 0).link x.previous) {top : Nat} (htop : top ≤ M) (d : Nat) {n k : Nat} (hd : k + d = top)
    (hp : (σ n).phase = .handing (seg c k top)) (hup : HasUpto (σ n).link c k) :
    ∃ m, n ≤ m ∧ (σ m).phase = .idle ∧ HasUpto (σ m).link c top := by
  induction d generalizing n k with
  | zero =>
    have hk : k = top := by omega
    subst hk
    have hseg : seg c k k = [] := by simp [seg]
    rw [hseg] at hp
    obtain ⟨m, hm, hpm, hown⟩ := h.next hp (by rintro ⟨⟩) fun hall _ => ⟨n, Nat.le_refl _, fun m hm => ⟨.finish, trivial, by
      simp [SyncRun.step, hall m hm]⟩⟩
    have hst := h.fair.exec m
    refine ⟨m + 1, by omega, ?_, h.upto (by omega) hup⟩
    cases hl : ev m with
    | ask e => rw [hl] at hown; exact hown.elim
    | sys l => rw [hl] at hown; exact hown.elim
    | hand => rw [hl] at hst; simp [SyncRun.step, hpm] at hst
    | back e => rw [hl] at hst; simp [SyncRun.step, hpm] at hst
    | finish => rw [hl] at hst; simp only [SyncRun.step, hpm, Option.some.injEq] at hst; rw [← hst]
  | succ d ih =>
    have hlt : k < top := by omega
    obtain ⟨x, hx, hxid⟩ := hsound.named (k + 1) (by omega) (by omega)
    have hS : Upto c M x := ⟨k + 1, by omega, by omega, hx⟩
    rw [seg_cons c hlt] at hp
    have call : ∀ t : Link.State, Link.step ao t (.act (.applyBlock x)) = some { t with app := App.applyBlock t.app x } := fun t => rfl
    -- the block is handed over
    obtain ⟨m, hm, hpm, hown⟩ := h.next hp (by rintro ⟨⟩) fun hall _ => ⟨n, Nat.le_refl _, fun m hm => ⟨.hand, trivial, by
      simp [SyncRun.step, hall m hm, hx, call]⟩⟩
    have hst := h.fair.exec m
    have hnext : (σ (m + 1)).phase = .waiting (σ m).link.app.nextReq (c.blk (k + 1)) (seg c (k + 1) top) ∧
        (σ (m + 1)).link.app = App.applyBlock (σ m).link.app x := by
      cases hl : ev m with
      | ask e => rw [hl] at hown; exact hown.elim
      | sys l => rw [hl] at hown; exact hown.elim
      | back e => rw [hl] at hst; simp [SyncRun.step, hpm] at hst
      | finish => rw [hl] at hst; simp [SyncRun.step, hpm] at hst
      | hand =>
        rw [hl] at hst
        simp only [SyncRun.step, hpm, hx, call, Option.some.injEq] at hst
        rw [← hst]; exact ⟨rfl, rfl⟩
    have hcall : Obs.call (σ m).link.app.nextReq x ∈ (σ (m + 1)).link.app.log := by
      rw [hnext.2]
      unfold App.applyBlock
      simp only
      cases ((σ m).link.app.watchdog.addBlk x).2 <;> simp
    -- the call is over
    obtain ⟨m2, hm2, hpm2, hown2⟩ := h.served ho hsound hnum hroot hnext.1 (by omega) hx hcall (h.upto (show n ≤ m + 1 by omega) hup)
    have hcall2 := h.log hm2 _ hcall
    have hst2 := h.fair.exec m2
    obtain ⟨hsafe, _⟩ := reach_safe ho (h.reached m2) (h.clean m2)
    have hover : ∀ e, over (σ m2).link.app.log (σ m).link.app.nextReq e = true → e = none ∧ Has (σ m2).link x.id := by
      intro e he
      rcases of_decide_eq_true he with hr | hr
      · rcases C08_returned_value (reach_app (h.reached m2)) _ _ hr with ha | rfl
        · exact hsafe.ans x _ e hS hcall2 ha
        · exact absurd hr (h.patient m2 _ _ _ hpm2)
      · exact absurd hr ((h.clean m2).refused x _ _ hS hcall2)
    have hback : (σ (m2 + 1)).phase = .handing (seg c (k + 1) top) ∧ Has (σ m2).link x.id := by
      cases hl : ev m2 with
      | ask e => rw [hl] at hown2; exact hown2.elim
      | sys l => rw [hl] at hown2; exact hown2.elim
      | hand => rw [hl] at hst2; simp [SyncRun.step, hpm2] at hst2
      | finish => rw [hl] at hst2; simp [SyncRun.step, hpm2] at hst2
      | back e =>
        rw [hl] at hst2
        simp only [SyncRun.step, hpm2] at hst2
        split at hst2
        · rename_i hov
          obtain ⟨rfl, hhas⟩ := hover e hov
          simp only [Option.some.injEq] at hst2
          rw [← hst2]; exact ⟨rfl, hhas⟩
        · cases hst2
    obtain ⟨m3, hm3, hres⟩ := ih (n := m2 + 1) (k := k + 1) (by omega) hback.1 (fun j h0 hj => by
      rcases Nat.lt_or_ge j (k + 1) with hlt' | hge
      · exact h.has (show n ≤ m2 + 1 by omega) (hup j h0 (by omega))
      · have : j = k + 1 := by omega
        rw [this, ← hxid]
        exact h.has (show m2 ≤ m2 + 1 by omega) hback.2)
    exact ⟨m3, by omega, hres⟩

private theorem upto_all {c : Chain} {M H : Nat} {s : Link.State} (hs : Sound c M) (hH : H ≤ M) (ht : Truthful (Upto c M) s) (h : Has s (c.id H)) :
    HasUpto s c H := by
  have key : ∀ d k, k + d = H → 0 < k → Has s (c.id k) := by
    intro d
    induction d with
    | zero => intro k hk _; rwa [show k = H by omega]
    | succ d ih =>
      intro k hk h0
      obtain ⟨m, hm⟩ := ih (k + 1) (by omega) (by omega)
      obtain ⟨x, hx, hid⟩ := hs.named (k + 1) (by omega) (by omega)
      have := (ht x ⟨k + 1, by omega, by omega, hx⟩ m (by rw [hid]; exact hm)).2
      rwa [hs.linked k h0 (by omega) x hx] at this
  exact fun j h0 hj => key (H - j) j (by omega) h0

private theorem no_crash (o : Opts) (e : SyncEnv) (id : Bytes) (height : UInt64) (hh : e.peerHead = .ok (id, height))
    (h : ¬ (e.lib.height < height ∧ e.blocksByID id = .ok [0])) : (allWell o e).out ≠ .panic := by
  unfold allWell requestSyncBlocks
  simp only [hh]
  split
  · rintro ⟨⟩
  · rename_i hle
    have hlt : e.lib.height < height := UInt64.not_le.1 hle
    cases hb : e.blocksByID id with
    | error x => simp
    | ok items =>
      simp only
      match items, hb with
      | [], _ => simp
      | [a], hb =>
        by_cases ha : a = 0
        · subst ha; exact absurd ⟨hlt, hb⟩ h
        · simp [ha]
      | _ :: _ :: _, _ => simp

/-- A round with an honest peer whose head has height `H` at least is over in the end, and has brought us a batch, less `K`, further. -/
private theorem Run.brings {c : Chain} {M : Nat} (h : Run o ao (Upto c M) σ ev) (ho : GoodOpts ao) (hb : o.batch.toNat < 2 ^ 32) {K : Nat}
    (hK : K < o.batch.toNat) {codec : Codec} {remote : Err → Nat} {net : Bytes} {H : Nat} (hf : ∀ k, 0 < k → k ≤ M → Faithful codec (c.blk k))
    (hsound : Sound c M) (hnum : Numbered c M) (hroot : ∀ x, (c.blk 1).toBlk = some x → Has (σ 0).link x.previous) {m : Nat} {e : SyncEnv}
    (he : ev m = .ask e) (hhon : Honest codec remote net c K H M (σ m).link e) :
    ∃ m2, m < m2 ∧ (σ m2).phase = .idle ∧ ∀ k, HasUpto (σ m).link c k → HasUpto (σ m2).link c (min H (k + (o.batch.toNat - K))) := by
  obtain ⟨r, l, head, rfl, hk, hHh, hhM, hid, hbeg⟩ := hhon
  have hst := h.fair.exec m
  rw [he] at hst
  have hidle : (σ m).phase = .idle := by
    simp only [SyncRun.step] at hst
    cases hq : (σ m).phase <;> simp only [hq] at hst
    · rfl
    all_goals cases hst
  have hfh : ∀ k, 0 < k → k ≤ head.height.toNat → Faithful codec (c.blk k) := fun k h1 h2 => hf k h1 (by omega)
  set r' : Round := { r with apply := fun _ _ => none, synced := false } with hr'
  obtain ⟨q, hq, hqh, hplan⟩ := C132_handed o (by omega) hb codec remote l net head c hk hfh r' hbeg.lib
  have hplan' : plan o (syncEnv codec remote r.lib r.known r.apply l) = (List.range q).map fun j => c.blk (r.lib.height.toNat + 1 + j) := hplan
  set lib := r.lib.height.toNat with hlib
  -- the round ends, and our chain has its blocks
  have hround : ∃ m2, m < m2 ∧ (σ m2).phase = .idle ∧ HasUpto (σ m2).link c (lib + q) := by
    rcases Nat.eq_zero_or_pos q with rfl | hq0
    · simp only [List.range_zero, List.map_nil] at hplan'
      have hlibup : HasUpto (σ m).link c (lib + 0) := hbeg.has
      have hnp : (allWell o (syncEnv codec remote r.lib r.known r.apply l)).out ≠ .panic := by
        -- a round with an honest peer does not crash
        intro hpanic
        by_cases hup' : lib < head.height.toNat ∧ r.known head.id = .ok [0]
        · have hw : (allWell o (syncEnv codec remote r.lib r.known r.apply l)).out = .ok :=
            (honest_round o (by omega) hb codec remote r.lib r.known (fun _ _ => none) l net head c hk false hbeg.lib hfh
              (fun _ _ => Or.inl rfl) hup'.1 hup'.2).2
          rw [hw] at hpanic; cases hpanic
        · have hhead : (syncEnv codec remote r.lib r.known r.apply l).peerHead = .ok (head.id, head.height) :=
            (askHead_ok remote l head.id head.height).2 hk.top
          exact no_crash o _ head.id head.height hhead (fun hc => hup' ⟨UInt64.lt_iff_toNat_lt.1 hc.1, hc.2⟩) hpanic
      simp only [SyncRun.step, hidle, hplan', Option.some.injEq] at hst
      refine ⟨m + 1, by omega, ?_, h.upto (by omega) hlibup⟩
      rw [← hst]
      simp only [if_neg hnp]
    · have hne : plan o (syncEnv codec remote r.lib r.known r.apply l) ≠ [] := by
        rw [hplan']; intro hnil; have := congrArg List.length hnil; simp at this; omega
      have hph : (σ (m + 1)).phase = .handing (seg c lib (lib + q)) := by
        obtain ⟨b, t, hbt⟩ := List.exists_cons_of_ne_nil hne
        simp only [SyncRun.step, hidle, hbt, Option.some.injEq] at hst
        rw [← hst]
        show Phase.handing _ = _
        rw [← hbt, hplan']
        unfold seg
        rw [show lib + q - lib = q by omega]
      obtain ⟨m2, hm2, hres⟩ := h.round ho hsound hnum hroot (top := lib + q) (by omega) q rfl hph (h.upto (show m ≤ m + 1 by omega) hbeg.has)
      exact ⟨m2, by omega, hres⟩
  obtain ⟨m2, hm2, hi2, hup2⟩ := hround
  refine ⟨m2, hm2, hi2, fun k hupm => ?_⟩
  by_cases hhas : Has (σ m).link head.id
  · have hfull := upto_all hsound hhM (h.truth m) (hid ▸ hhas)
    exact fun j hj0 hj => h.has (by omega) (hfull j hj0 (by omega))
  by_cases hkh : k ≤ head.height.toNat
  · have hlag := hbeg.lag k hkh hupm
    by_cases hup' : lib < head.height.toNat
    · have hr1 := (honest_round o (by omega) hb codec remote r.lib r.known (fun _ _ => none) l net head c hk false hbeg.lib hfh
        (fun _ _ => Or.inl rfl) hup' (hbeg.known hhas)).1
      have hr2 : plan o (syncEnv codec remote r.lib r.known r.apply l) = _ := hr1
      have hlen := congrArg List.length (hplan'.symm.trans hr2)
      simp only [List.length_map, List.length_range] at hlen
      intro j hj0 hj
      exact hup2 j hj0 (by omega)
    · intro j hj0 hj
      exact h.has (show m ≤ m2 by omega) (hbeg.has j hj0 (by omega))
  · exact fun j hj0 hj => h.has (show m ≤ m2 by omega) (hupm j hj0 (by omega))

/-- C132, over time, with a peer that may be behind at first. As in `C132_in_the_end_partial`, but the head of the peer need have height `H` only in
rounds from time `N0` on. -/
theorem C132_follows_partial (o : Opts) (hb : o.batch.toNat < 2 ^ 32) (K : Nat) (hK : K < o.batch.toNat) (ao : AppOpts) (ho : GoodOpts ao)
    (codec : Codec) (remote : Err → Nat) (net : Bytes) (c : Chain) (H M : Nat)
    (hf : ∀ k, 0 < k → k ≤ M → Faithful codec (c.blk k)) (hsound : Sound c M) (hnum : Numbered c M)
    (σ : Nat → SyncRun.State) (ev : Nat → SyncRun.Label) (hfair : Fair o ao σ ev) (h0 : (σ 0).phase = .idle)
    (hreach : Reach ao (Fit (Upto c M) ao) (σ 0).link) (htrue : ∀ n, Truthful (Upto c M) (σ n).link)
    (hfit : ∀ n l, ev n = .sys l → Fit (Upto c M) ao (σ n).link l) (hclean : ∀ n, Clean (Upto c M) (σ n).link.app.log)
    (hroot : ∀ x, (c.blk 1).toBlk = some x → Has (σ 0).link x.previous)
    (hhung : ∀ n, (σ n).link.app.hung = false) (hroom : ∀ n, (σ n).link.app.highest.toNat + 1 < 2 ^ 64)
    (hpat : ∀ (n r : Nat) (b : RawBlock) (todo : List RawBlock), (σ n).phase = .waiting r b todo →
      Obs.returned r (some (.sentinel .blockApplicationTimeout)) ∉ (σ n).link.app.log)
    (N0 : Nat)
    (hrounds : ∀ n, (σ n).phase = .idle → ∃ m, n ≤ m ∧ ∃ e, ev m = .ask e ∧ Honest codec remote net c K (if N0 ≤ m then H else 0) M (σ m).link e) :
    ∃ N, ∀ n, N ≤ n → HasUpto (σ n).link c H := by
  have h : Run o ao (Upto c M) σ ev := ⟨hfair, hreach, htrue, hfit, hclean, hhung, hroom, hpat⟩
  -- the session is idle again and again
  have hidle : ∀ N, ∃ n, N ≤ n ∧ (σ n).phase = .idle := by
    intro N
    induction N with
    | zero => exact ⟨0, Nat.le_refl _, h0⟩
    | succ N ih =>
      obtain ⟨n, hn, hi⟩ := ih
      obtain ⟨m, hm, e, he, hhon⟩ := hrounds n hi
      obtain ⟨m2, hm2, hi2, _⟩ := h.brings ho hb hK hf hsound hnum hroot he hhon
      exact ⟨m2, by omega, hi2⟩
  have hmain : ∀ d, ∃ n, N0 ≤ n ∧ (σ n).phase = .idle ∧ HasUpto (σ n).link c (min H (d * (o.batch.toNat - K))) := by
    intro d
    induction d with
    | zero =>
      obtain ⟨n, hn, hi⟩ := hidle N0
      exact ⟨n, hn, hi, fun j hj0 hj => absurd hj (by omega)⟩
    | succ d ih =>
      obtain ⟨n, hN, hn, hup⟩ := ih
      obtain ⟨m, hm, e, he, hhon⟩ := hrounds n hn
      rw [if_pos (by omega)] at hhon
      obtain ⟨m2, hm2, hi2, hbr⟩ := h.brings ho hb hK hf hsound hnum hroot he hhon
      refine ⟨m2, by omega, hi2, fun j hj0 hj => hbr _ (h.upto hm hup) j hj0 ?_⟩
      have hmul : (d + 1) * (o.batch.toNat - K) = d * (o.batch.toNat - K) + (o.batch.toNat - K) := Nat.succ_mul _ _
      rw [hmul] at hj
      omega
  obtain ⟨n, _, _, hn⟩ := hmain H
  refine ⟨n, fun m hm j hj0 hj => h.has hm (hn j hj0 ?_)⟩
  have : H ≤ H * (o.batch.toNat - K) := Nat.le_mul_of_pos_right _ (by omega)
  omega

/-- C132, over time. A session with an honest peer goes on, together with the applicator, the chain and other callers, in an infinite
execution in which nothing is neglected for ever (`Fair`), from the time when it has passed the handshake. `M` bounds the heights the
peer's head has in the rounds, `H` is reached by it in each of them. The chain is willing to take the blocks of the peer in the sense of
C125 (`Fit`, `Clean`), has the block below the first, and our calls do not run into their time-out. Rounds may fail for want of answers,
but always after some time there is one with answers, in which irreversibility is less than a batch behind (`Honest`). Then in the end our
chain has all blocks of the peer up to height `H`. -/
theorem C132_in_the_end_partial (o : Opts) (hb : o.batch.toNat < 2 ^ 32) (K : Nat) (hK : K < o.batch.toNat) (ao : AppOpts) (ho : GoodOpts ao)
    (codec : Codec) (remote : Err → Nat) (net : Bytes) (c : Chain) (H M : Nat)
    (hf : ∀ k, 0 < k → k ≤ M → Faithful codec (c.blk k)) (hsound : Sound c M) (hnum : Numbered c M)
    (σ : Nat → SyncRun.State) (ev : Nat → SyncRun.Label) (hfair : Fair o ao σ ev) (h0 : (σ 0).phase = .idle)
    (hreach : Reach ao (Fit (Upto c M) ao) (σ 0).link) (htrue : ∀ n, Truthful (Upto c M) (σ n).link)
    (hfit : ∀ n l, ev n = .sys l → Fit (Upto c M) ao (σ n).link l) (hclean : ∀ n, Clean (Upto c M) (σ n).link.app.log)
    (hroot : ∀ x, (c.blk 1).toBlk = some x → Has (σ 0).link x.previous)
    (hhung : ∀ n, (σ n).link.app.hung = false) (hroom : ∀ n, (σ n).link.app.highest.toNat + 1 < 2 ^ 64)
    (hpat : ∀ (n r : Nat) (b : RawBlock) (todo : List RawBlock), (σ n).phase = .waiting r b todo →
      Obs.returned r (some (.sentinel .blockApplicationTimeout)) ∉ (σ n).link.app.log)
    (hrounds : ∀ n, (σ n).phase = .idle → ∃ m, n ≤ m ∧ ∃ e, ev m = .ask e ∧ Honest codec remote net c K H M (σ m).link e) :
    ∃ N, ∀ n, N ≤ n → HasUpto (σ n).link c H :=
  C132_follows_partial o hb K hK ao ho codec remote net c H M hf hsound hnum σ ev hfair h0 hreach htrue hfit hclean hroot hhung hroom hpat 0 (fun n hn => by
    simpa using hrounds n hn)

/-! ### Example: the rounds of the example of C132, then a round every second step for ever -/

def scO : Opts := { checkpoints := [], batch := 2, delta := 5 }
def scEnv (r : Round) : SyncEnv := syncEnv ccCodec (fun _ => 0) r.lib r.known r.apply ccPeer
def scR0 : Round := ⟨⟨[], 0⟩, fun _ => .ok [0], fun _ _ => none, false⟩
def scR1 : Round := ⟨⟨[1], 1⟩, fun _ => .ok [0], fun _ _ => none, false⟩
def scR2 : Round := ⟨⟨[2], 2⟩, fun _ => .ok [3], fun _ _ => none, true⟩

def scHand (b : Blk) (r : Nat) : List SyncRun.Label := .hand :: ((ccApply b r).drop 1).map .sys ++ [.back none]

def scList : List SyncRun.Label :=
  .ask (scEnv scR0) :: scHand ccB1 0 ++ scHand ccB2 1 ++ [.finish, .ask (scEnv scR1)] ++
  [.hand, .sys (.act (.newBlock 0)), .sys (.act (.tryBlock 0)), .sys (.act (.work 0)), .sys (.act (.rpcReturn 0 none)),
   .sys (.act (.status 0)), .sys (.act (.callerReturns 2)), .back none] ++ scHand ccB3 3 ++ [.finish, .ask (scEnv scR2)]

def scEv (n : Nat) : SyncRun.Label := scList.getD n (if n % 2 = 0 then .sys (.act (.tick 1)) else .ask (scEnv scR2))

def scσ : Nat → SyncRun.State
  | 0 => SyncRun.init ccS0
  | n + 1 => (SyncRun.step scO {} (scσ n) (scEv n)).getD (scσ n)

private theorem scσ_succ (n : Nat) : scσ (n + 1) = (SyncRun.step scO {} (scσ n) (scEv n)).getD (scσ n) := rfl

private theorem scEnabled : ∀ n < 43, (SyncRun.step scO {} (scσ n) (scEv n)).isSome = true := by decide +kernel

private theorem scPlan2 : plan scO (scEnv scR2) = [] ∧ (allWell scO (scEnv scR2)).out ≠ .panic := by decide +kernel

private theorem scAsk (s : SyncRun.State) (h : s.phase = .idle) :
    SyncRun.step scO {} s (.ask (scEnv scR2)) = some { s with phase := .idle, env := some (scEnv scR2), results := [] } := by
  simp only [SyncRun.step, h, scPlan2.1, if_neg scPlan2.2]

/-- The state `j` nanoseconds after `s`. -/
def scLater (s : SyncRun.State) (j : Nat) : SyncRun.State :=
  { s with link := { s.link with app := { s.link.app with now := s.link.app.now + j } } }

private theorem scTick (s : SyncRun.State) (j : Nat) : SyncRun.step scO {} (scLater s j) (.sys (.act (.tick 1))) = some (scLater s (j + 1)) := by
  simp only [SyncRun.step, Link.step, App.step, Option.map_some, scLater]
  congr 4
  omega

theorem scEv_tail (j : Nat) : scEv (43 + j) = if (43 + j) % 2 = 0 then .sys (.act (.tick 1)) else .ask (scEnv scR2) := by
  unfold scEv
  have : scList.length = 43 := rfl
  rw [List.getD, List.getElem?_eq_none (by omega), Option.getD_none]

private theorem scEv_last : scEv 42 = .ask (scEnv scR2) := rfl

private theorem scPhase42 : (scσ 42).phase = .idle := by decide +kernel

private def scGood (n : Nat) : Bool :=
  truthfulB [ccB1, ccB2, ccB3] (scσ n).link && (match scEv n with | .sys l => inTimeB {} (scσ n).link l | _ => true) &&
  !(scσ n).link.app.hung && decide ((scσ n).link.app.highest.toNat + 1 < 2 ^ 64) &&
  (scσ n).link.app.log.all fun x => decide (x ∈ (scσ 43).link.app.log)

private theorem scGood_all : ∀ n < 44, scGood n = true := by decide +kernel

def scTimeout : Obs → Bool
  | .returned _ (some (.sentinel .blockApplicationTimeout)) => true
  | _ => false

theorem scEnd : handedB [ccB1, ccB2, ccB3] (scσ 43).link = true ∧ ((scσ 43).link.app.log.all fun x => !scTimeout x) = true ∧
    ((scσ 43).link.app.newQ = [] ∧ (scσ 43).link.app.tries = [] ∧ (scσ 43).link.app.retries = [] ∧ (scσ 43).link.app.apps = [] ∧
      (∀ r ∈ (scσ 43).link.app.waiting, r ∉ App.answered (scσ 43).link.app.log) ∧ (scσ 43).link.news = []) ∧ (scσ 43).link.app.now = 0 ∧ (scσ 43).link.accepted = [([3], 3), ([2], 2), ([1], 1), ([0], 0)] := by decide +kernel

theorem scPhase0 : (scσ 0).phase = .idle := rfl
private theorem scInit : scσ 0 = SyncRun.init ccS0 := rfl
private theorem scRound1 : (scσ 22).phase = .idle ∧ (scσ 22).results.length = 2 ∧ (scσ 22).env.isSome = true := by decide +kernel
theorem scLink0 : (scσ 0).link = ccS0 := rfl

theorem scBegin : (∀ x, (ccChain.blk 1).toBlk = some x → Has (scσ 0).link x.previous) := by
  rintro x ⟨⟩; decide +kernel

attribute [local irreducible] scσ

theorem scLast : (scσ 43).phase = .idle ∧ (scσ 43).env = some (scEnv scR2) ∧ (scσ 43).results = [] := by
  rw [scσ_succ, scEv_last, scAsk _ scPhase42, Option.getD_some]
  exact ⟨rfl, rfl, rfl⟩

private theorem scTail_step (j : Nat) : SyncRun.step scO {} (scLater (scσ 43) (j / 2)) (scEv (43 + j)) = some (scLater (scσ 43) ((j + 1) / 2)) := by
  obtain ⟨h1, h2, h3⟩ := scLast
  rw [scEv_tail]
  split
  · rw [scTick, show (j + 1) / 2 = j / 2 + 1 by omega]
  · rw [scAsk (scLater (scσ 43) (j / 2)) h1, show (j + 1) / 2 = j / 2 by omega]
    unfold scLater
    generalize scσ 43 = s at h1 h2 h3
    obtain ⟨link, phase, env, results⟩ := s
    dsimp only at h1 h2 h3
    rw [h1, h2, h3]

theorem scTail (j : Nat) : scσ (43 + j) = scLater (scσ 43) (j / 2) := by
  induction j with
  | zero => simp [scLater]
  | succ j ih => rw [← Nat.add_assoc, scσ_succ, ih, scTail_step, Option.getD_some]

theorem scExec (n : Nat) : SyncRun.step scO {} (scσ n) (scEv n) = some (scσ (n + 1)) := by
  rcases Nat.lt_or_ge n 43 with h | h
  · obtain ⟨t, ht⟩ := Option.isSome_iff_exists.1 (scEnabled n h)
    rw [scσ_succ, ht, Option.getD_some]
  · obtain ⟨j, rfl⟩ : ∃ j, n = 43 + j := ⟨n - 43, by omega⟩
    rw [scTail, scTail_step, Nat.add_assoc, scTail]

theorem scState (n : Nat) : ∃ k ≤ 43, ∃ j : Nat, scσ n = scLater (scσ k) j ∧ (n < 43 → k = n) := by
  rcases Nat.lt_or_ge n 43 with h | h
  · exact ⟨n, by omega, 0, by simp [scLater], fun _ => rfl⟩
  · obtain ⟨j, rfl⟩ : ∃ j, n = 43 + j := ⟨n - 43, by omega⟩
    exact ⟨43, by omega, j / 2, scTail j, fun h => by omega⟩

theorem scChecks (k : Nat) (hk : k ≤ 43) : truthfulB [ccB1, ccB2, ccB3] (scσ k).link = true ∧
    (∀ l, scEv k = .sys l → inTimeB {} (scσ k).link l = true) ∧ (scσ k).link.app.hung = false ∧ (scσ k).link.app.highest.toNat + 1 < 2 ^ 64 ∧
    ∀ x ∈ (scσ k).link.app.log, x ∈ (scσ 43).link.app.log := by
  have := scGood_all k (by omega)
  simp only [scGood, Bool.and_eq_true, Bool.not_eq_true', decide_eq_true_eq, List.all_eq_true] at this
  obtain ⟨⟨⟨⟨h1, h2⟩, h3⟩, h4⟩, h5⟩ := this
  refine ⟨h1, fun l hl => ?_, h3, h4, h5⟩
  rw [hl] at h2; exact h2

theorem scTruth (n : Nat) : Truthful (· ∈ [ccB1, ccB2, ccB3]) (scσ n).link := by
  obtain ⟨k, hk, j, he, _⟩ := scState n
  rw [he]
  have := truthful_of (scChecks k hk).1
  exact this

private theorem scSettled : Settled (scσ 43).link := settled_of scEnd.2.2.1

/-- At rest there is no step of any kind. -/
private theorem rest_none {ao : AppOpts} {s : AState} (h : App.AtRest s) {k : App.Kind} {x : App.Label} (hk : k.has x) : App.step ao s x = none := by
  cases k <;> cases x <;> simp only [App.Kind.has] at hk <;>
    simp only [App.step, h.newQ, h.tries, h.apps, h.retries, List.getElem?_nil]
  case caller.callerReturns r =>
    split
    · rename_i hw
      cases ha : App.answerOf s.log r with
      | none => rfl
      | some e =>
        unfold App.answerOf at ha
        obtain ⟨y, hy, hy'⟩ := List.exists_of_findSome?_eq_some ha
        cases y <;> simp at hy'
        obtain ⟨rfl, rfl⟩ := hy'
        exact (h.callers _ hw (List.mem_filterMap.2 ⟨_, hy, rfl⟩)).elim
    · rfl
  all_goals first | rfl | (cases s.hung <;> rfl)

theorem scFair : Fair scO {} scσ scEv := by
  have hrest := scSettled
  have later : ∀ n, ∃ j, scσ (43 + n) = scLater (scσ 43) j := fun n => ⟨_, scTail n⟩
  refine ⟨scExec, ?_, ?_, ?_, ?_, ?_⟩
  · intro n h
    obtain ⟨x, hx, hs⟩ := h (43 + n) (by omega)
    rw [scTail] at hs
    cases x <;> simp [Own] at hx <;> simp [SyncRun.step, scLater, scLast.1] at hs
  · intro T n
    refine ⟨43 + 2 * (n + T.toNat), by omega, ?_⟩
    rw [scTail]
    show T ≤ (scσ 43).link.app.now + _
    rw [scEnd.2.2.2.1]
    omega
  · intro n h
    obtain ⟨i, hi⟩ := h (43 + n) (by omega)
    rw [scTail] at hi
    simp only [Link.step, scLater, hrest.news, List.getElem?_nil] at hi
    cases hi
  · intro k n h
    obtain ⟨x, hk, hx⟩ := h (43 + n) (by omega)
    rw [scTail] at hx
    obtain ⟨t, ht⟩ := Option.isSome_iff_exists.1 hx
    obtain ⟨a, ha, _⟩ := step_act ht
    have hr : App.AtRest (scLater (scσ 43) (n / 2)).link.app :=
      ⟨hrest.app.newQ, hrest.app.tries, hrest.app.retries, hrest.app.apps, hrest.app.callers⟩
    rw [rest_none hr hk] at ha; cases ha
  · intro n h
    obtain ⟨r, b, todo, hp⟩ := h (43 + n) (by omega)
    rw [scTail] at hp
    have : (scσ 43).phase = .waiting r b todo := hp
    rw [scLast.1] at this; cases this

theorem scReach (n : Nat) : Reach {} (Fit (· ∈ [ccB1, ccB2, ccB3]) {}) (scσ n).link ∧
    ∀ l, scEv n = .sys l → Fit (· ∈ [ccB1, ccB2, ccB3]) {} (scσ n).link l := by
  have fit : ∀ n, Reach {} (Fit (· ∈ [ccB1, ccB2, ccB3]) {}) (scσ n).link → ∀ l, scEv n = .sys l →
      Fit (· ∈ [ccB1, ccB2, ccB3]) {} (scσ n).link l := by
    intro n hr l hl
    refine ⟨scTruth n, ?_⟩
    rcases Nat.lt_or_ge n 43 with h | h
    · exact fun b _ => inTime_of (reach_inv hr).inv.idx ((scChecks n (by omega)).2.1 l hl) b
    · obtain ⟨j, rfl⟩ : ∃ j, n = 43 + j := ⟨n - 43, by omega⟩
      rw [scEv_tail] at hl
      split at hl
      · cases hl
        rintro b _ _ (⟨i, m, hc, _⟩ | ⟨i, c, hc, _⟩) <;> cases hc
      · cases hl
  have reach : ∀ n, Reach {} (Fit (· ∈ [ccB1, ccB2, ccB3]) {}) (scσ n).link := by
    intro n
    induction n with
    | zero => rw [scLink0]; exact .init 0 0 0 _ (by decide)
    | succ n ih =>
      rcases sync_link_step (scExec n) with he | ⟨x, _, hx⟩ | ⟨l, hl, hx⟩
      · rw [he]; exact ih
      · exact .step ih (fit_call (scTruth n)) hx
      · exact .step ih (fit n ih l hl) hx
  exact ⟨reach n, fit n (reach n)⟩

theorem scHonest (j : Nat) : Honest ccCodec (fun _ => 0) [7] ccChain 1 3 3 (scσ (43 + j)).link (scEnv scR2) := by
  refine ⟨scR2, ccPeer, ⟨[3], 3⟩, rfl, ccKeeps, Nat.le_refl _, Nat.le_refl _, rfl, fun _ => rfl, ?_, fun k hk _ => hk, ?_⟩
  · intro i h0 hi
    have hi : i ≤ 2 := hi
    rw [scTail]
    show ∃ h, _ ∈ (scσ 43).link.accepted
    rw [scEnd.2.2.2.2]
    interval_cases i
    · exact ⟨1, by decide⟩
    · exact ⟨2, by decide⟩
  · intro h
    refine absurd ?_ h
    rw [scTail]
    show ∃ h, _ ∈ (scσ 43).link.accepted
    rw [scEnd.2.2.2.2]
    exact ⟨3, by decide⟩

example : ∃ N, ∀ n, N ≤ n → HasUpto (scσ n).link ccChain 3 := by
  have hclean : Clean (· ∈ [ccB1, ccB2, ccB3]) (scσ 43).link.app.log := (handed_of scEnd.1).clean
  have hlog : ∀ n x, x ∈ (scσ n).link.app.log → x ∈ (scσ 43).link.app.log := by
    intro n
    obtain ⟨k, hk, j, he, _⟩ := scState n
    rw [he]; exact (scChecks k hk).2.2.2.2
  refine C132_in_the_end_partial scO (by decide) 1 (by decide) {} ⟨by decide, by decide⟩ ccCodec (fun _ => 0) [7] ccChain 3 3 ?_ ⟨?_, ?_⟩ ?_ scσ scEv
    scFair scPhase0 ?_ ?_ ?_ ?_ scBegin ?_ ?_ ?_ ?_
  · intro k h0 h3
    refine ⟨_, rfl, ?_⟩
    interval_cases k <;> rfl
  · intro k h0 h3
    interval_cases k <;> exact ⟨_, rfl, rfl⟩
  · intro k h0 h3 x hx
    interval_cases k <;> (cases hx; rfl)
  · intro k h0 h3 x hx
    interval_cases k <;> (cases hx; rfl)
  · rw [ccUpto]; exact (scReach 0).1
  · rw [ccUpto]; exact scTruth
  · rw [ccUpto]; exact fun n => (scReach n).2
  · rw [ccUpto]; exact fun n => hclean.back (hlog n)
  · intro n
    obtain ⟨k, hk, j, he, _⟩ := scState n
    rw [he]; exact (scChecks k hk).2.2.1
  · intro n
    obtain ⟨k, hk, j, he, _⟩ := scState n
    rw [he]; exact (scChecks k hk).2.2.2.1
  · intro n r b todo _ hr
    exact absurd (List.all_eq_true.1 scEnd.2.1 _ (hlog n _ hr)) (by simp [scTimeout])
  · intro n _
    refine ⟨43 + 2 * n, by omega, scEnv scR2, ?_, scHonest _⟩
    rw [scEv_tail, if_neg (by omega)]

/-- The hypotheses of `C132_stepwise`, for the state at the end of the first round of the example. -/
example : Reached scO {} (scσ 22) ∧ (scσ 22).phase = .idle ∧ (scσ 22).results.length = 2 ∧ (∃ e, (scσ 22).env = some e) := by
  have hr : ∀ n, Reached scO {} (scσ n) := by
    intro n
    induction n with
    | zero => rw [show scσ 0 = SyncRun.init ccS0 from scInit]; exact .init _
    | succ n ih => exact .step ih (scExec n)
  exact ⟨hr 22, scRound1.1, scRound1.2.1, Option.isSome_iff_exists.1 scRound1.2.2⟩

end KP2P

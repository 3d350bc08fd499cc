import Verif.Model.ForkWatchdog
import Verif.Spec.ForkWatchdog
import Mathlib.Data.List.Induction
import Mathlib.Data.List.Nodup
import Mathlib.Data.List.Perm.Subperm

namespace KP2P
open Spec

namespace ForkWatchdog

/-- Is `id` recorded at this height and pair? -/
def knows (f : ForkWatchdog) (h : UInt64) (p : PairKey) (id : Bytes) : Bool :=
  match f.forkTracker.get h with
  | none => false
  | some m => match m.get p with
    | none => false
    | some s => s.has id

/-- The recorded set at this height and pair. -/
def idsAt (f : ForkWatchdog) (h : UInt64) (p : PairKey) : GoSet Bytes :=
  (((f.forkTracker.get h).getD ∅).get p).getD ∅

theorem knows_eq (f : ForkWatchdog) (h : UInt64) (p : PairKey) (id : Bytes) :
    f.knows h p id = (f.idsAt h p).has id := by
  unfold knows idsAt
  cases f.forkTracker.get h with
  | none => rfl
  | some m => cases hm : m.get p <;> simp [hm]

def pairOf (b : Blk) : PairKey := { signer := b.signer, parent := b.previous }

theorem idsAt_add (f : ForkWatchdog) (b : Blk) (h : UInt64) (p : PairKey) :
    (f.addBlk b).1.idsAt h p =
      if h = b.height ∧ p = pairOf b then (f.idsAt h p).set b.id () else f.idsAt h p := by
  unfold addBlk idsAt pairOf
  simp only
  by_cases h1 : h = b.height
  · subst h1
    by_cases h2 : p = { signer := b.signer, parent := b.previous }
    · subst h2
      cases ht : f.forkTracker.get b.height with
      | none => simp [GoMap.has_eq, ht]
      | some m =>
        cases hm : m.get { signer := b.signer, parent := b.previous } <;>
          simp [GoMap.has_eq, ht, hm]
    · cases ht : f.forkTracker.get b.height with
      | none => simp [GoMap.has_eq, ht, h2]
      | some m =>
        cases hm : m.get { signer := b.signer, parent := b.previous } <;>
          simp [GoMap.has_eq, ht, hm, h2]
  · cases ht : f.forkTracker.get b.height <;> simp [GoMap.has_eq, ht, h1]

theorem add_result (f : ForkWatchdog) (b : Blk) :
    (f.addBlk b).2 = if ((f.addBlk b).1.idsAt b.height (pairOf b)).len > 3
      then some (.sentinel .forkBomb) else none := by
  have : (f.addBlk b).1.idsAt b.height (pairOf b) = (f.idsAt b.height (pairOf b)).set b.id () := by
    rw [idsAt_add]; simp
  rw [this]
  unfold addBlk idsAt pairOf
  simp only
  cases ht : f.forkTracker.get b.height with
  | none => simp [GoMap.has_eq, ht]
  | some m =>
    cases hm : m.get { signer := b.signer, parent := b.previous } <;>
      simp [GoMap.has_eq, ht, hm]

theorem purgeLoop_get (lib : UInt64) (hs : List UInt64) (m : GoMap UInt64 (GoMap PairKey (GoSet Bytes)))
    (hsort : hs.Pairwise (fun a b => a ≤ b)) (k : UInt64) :
    (purgeLoop lib hs m).get k = if k ∈ hs ∧ k ≤ lib then none else m.get k := by
  induction hs generalizing m with
  | nil => simp [purgeLoop]
  | cons h hs ih =>
    rw [List.pairwise_cons] at hsort
    unfold purgeLoop
    by_cases hl : h ≤ lib
    · rw [if_pos hl, ih _ hsort.2, GoMap.get_del]
      by_cases hk : k = h
      · subst hk; simp [hl]
      · simp [hk]
    · rw [if_neg hl]
      have : ¬ (k ∈ h :: hs ∧ k ≤ lib) := by
        rintro ⟨hm, hle⟩
        rcases List.mem_cons.1 hm with rfl | hm
        · exact hl hle
        · exact hl (UInt64.le_trans (hsort.1 k hm) hle)
      rw [if_neg this]

theorem purge_get (f : ForkWatchdog) (lib k : UInt64) :
    (f.purge lib).forkTracker.get k = if k ≤ lib then none else f.forkTracker.get k := by
  unfold purge
  simp only
  rw [purgeLoop_get]
  · simp only [List.mem_insertionSort]
    by_cases h : k ∈ f.forkTracker.keys
    · simp [h]
    · simp [h, (GoMap.get_eq_none_iff _ _).2 h]
  · have : Std.Total (α := UInt64) (· ≤ ·) := ⟨UInt64.le_total⟩
    have : IsTrans UInt64 (· ≤ ·) := ⟨fun _ _ _ => UInt64.le_trans⟩
    exact List.pairwise_insertionSort (· ≤ ·) _

theorem idsAt_purge (f : ForkWatchdog) (lib h : UInt64) (p : PairKey) :
    (f.purge lib).idsAt h p = if h ≤ lib then ∅ else f.idsAt h p := by
  unfold idsAt
  rw [purge_get]
  split <;> rfl

theorem run_append (f : ForkWatchdog) (a b : List WOp) :
    f.run (a ++ b) = (((f.run a).1.run b).1, (f.run a).2 ++ ((f.run a).1.run b).2) := by
  induction a generalizing f with
  | nil => rfl
  | cons o a ih => simp [run, ih]

theorem run_fst_snoc (f : ForkWatchdog) (a : List WOp) (o : WOp) :
    (f.run (a ++ [o])).1 = ((f.run a).1.op o).1 := by
  rw [run_append]; rfl

theorem snoc_split {α : Type} {hist pre post : List α} {x y : α}
    (h : hist ++ [x] = pre ++ y :: post) :
    (post = [] ∧ pre = hist ∧ y = x) ∨ ∃ post', post = post' ++ [x] ∧ hist = pre ++ y :: post' := by
  rcases List.eq_nil_or_concat post with rfl | ⟨post', z, rfl⟩
  · left
    have h1 := List.append_inj_left' h (by simp)
    have h2 := List.append_inj_right' h (by simp)
    simp at h2
    exact ⟨rfl, h1.symm, h2.symm⟩
  · right
    have e : hist ++ [x] = (pre ++ y :: post') ++ [z] := by rw [h]; simp
    have h1 := List.append_inj_left' e (by simp)
    have h2 := List.append_inj_right' e (by simp)
    simp at h2
    exact ⟨post', by simp [h2], h1⟩

theorem addedSince_snoc_add (hist : List WOp) (c b : Blk) (id : Bytes) :
    AddedSince (hist ++ [.add c]) b id ↔ AddedSince hist b id ∨ (c.id = id ∧ SameSlot c b) := by
  constructor
  · rintro ⟨pre, b', post, e, h1, h2, h3⟩
    rcases snoc_split e with ⟨rfl, rfl, e'⟩ | ⟨post', rfl, e'⟩
    · cases e'; exact Or.inr ⟨h1, h2⟩
    · exact Or.inl ⟨pre, b', post', e', h1, h2, fun lib hl => h3 lib (by simp [hl])⟩
  · rintro (⟨pre, b', post, e, h1, h2, h3⟩ | ⟨h1, h2⟩)
    · exact ⟨pre, b', post ++ [.add c], by simp [e], h1, h2, fun lib hl => h3 lib (by simpa using hl)⟩
    · exact ⟨hist, c, [], rfl, h1, h2, by simp⟩

theorem addedSince_snoc_purge (hist : List WOp) (lib : UInt64) (b : Blk) (id : Bytes) :
    AddedSince (hist ++ [.purge lib]) b id ↔ AddedSince hist b id ∧ lib < b.height := by
  constructor
  · rintro ⟨pre, b', post, e, h1, h2, h3⟩
    rcases snoc_split e with ⟨rfl, rfl, e'⟩ | ⟨post', rfl, e'⟩
    · cases e'
    · exact ⟨⟨pre, b', post', e', h1, h2, fun l hl => h3 l (by simp [hl])⟩, h3 lib (by simp)⟩
  · rintro ⟨⟨pre, b', post, e, h1, h2, h3⟩, hl⟩
    refine ⟨pre, b', post ++ [.purge lib], by simp [e], h1, h2, fun l hl' => ?_⟩
    rcases List.mem_append.1 hl' with h | h
    · exact h3 l h
    · simp at h; subst h; exact hl

/-- The recorded ids are exactly the ids added since the last purge. -/
theorem has_iff_added (hist : List WOp) (b : Blk) (id : Bytes) :
    ((new.run hist).1.idsAt b.height (pairOf b)).has id = true ↔ AddedSince hist b id := by
  induction hist using List.reverseRecOn generalizing id with
  | nil =>
    constructor
    · intro h; cases h
    · rintro ⟨pre, b', post, e, _⟩; simp at e
  | append_singleton hist o ih =>
    rw [run_fst_snoc]
    cases o with
    | add c =>
      rw [addedSince_snoc_add, ← ih]
      simp only [op]
      rw [idsAt_add]
      by_cases hs : b.height = c.height ∧ pairOf b = pairOf c
      · rw [if_pos hs]
        have : SameSlot c b := by
          have := hs.2; unfold pairOf at this; simp at this
          exact ⟨hs.1.symm, this.1.symm, this.2.symm⟩
        simp only [GoMap.has_set, Bool.or_eq_true, decide_eq_true_eq, this, and_true]
        constructor
        · rintro (h | h)
          · exact Or.inr h.symm
          · exact Or.inl h
        · rintro (h | h)
          · exact Or.inr h
          · exact Or.inl h.symm
      · rw [if_neg hs]
        have : ¬ SameSlot c b := by
          rintro ⟨h1, h2, h3⟩; exact hs ⟨h1.symm, by simp [pairOf, h2, h3]⟩
        simp [this]
    | purge lib =>
      rw [addedSince_snoc_purge, ← ih]
      simp only [op]
      rw [idsAt_purge]
      by_cases hl : b.height ≤ lib
      · rw [if_pos hl]
        simp only [GoMap.has_empty, Bool.false_eq_true, false_iff, not_and]
        intro _ h
        exact absurd hl (UInt64.not_le.2 h)
      · rw [if_neg hl]
        have := UInt64.not_le.1 hl
        simp [this]

theorem len_gt_iff (s : GoSet Bytes) (P : Bytes → Prop) (h : ∀ id, s.has id = true ↔ P id) :
    s.len > 3 ↔ ∃ ids : List Bytes, ids.Nodup ∧ ids.length = 4 ∧ ∀ id ∈ ids, P id := by
  rw [GoMap.len_eq_keys]
  constructor
  · intro hl
    refine ⟨s.keys.take 4, List.Pairwise.sublist (List.take_sublist _ _) s.keys_nodup, ?_, ?_⟩
    · rw [List.length_take]; omega
    · intro id hid
      rw [← h, ← GoMap.mem_keys]
      exact List.mem_of_mem_take hid
  · rintro ⟨ids, hn, hl, hp⟩
    have : ids.length ≤ s.keys.length := by
      apply List.Subperm.length_le
      apply List.subperm_of_subset hn
      intro id hid
      rw [GoMap.mem_keys, h]
      exact hp id hid
    omega

theorem verdict_iff (hist : List WOp) (b : Blk) :
    ((new.run hist).1.addBlk b).2 =
      (open Classical in if TooManyForks (hist ++ [.add b]) b then some (.sentinel .forkBomb) else none) := by
  rw [add_result]
  have : ((new.run hist).1.addBlk b).1 = (new.run (hist ++ [.add b])).1 := by
    rw [run_fst_snoc]; rfl
  rw [this]
  have hl := len_gt_iff ((new.run (hist ++ [.add b])).1.idsAt b.height (pairOf b))
    (AddedSince (hist ++ [.add b]) b) (has_iff_added _ b)
  unfold TooManyForks
  by_cases h : ((new.run (hist ++ [.add b])).1.idsAt b.height (pairOf b)).len > 3
  · rw [if_pos h, if_pos (hl.1 h)]
  · rw [if_neg h, if_neg (fun x => h (hl.2 x))]

theorem mem_remembered (f : ForkWatchdog) (h : UInt64) (p : PairKey) (id : Bytes) :
    (h, p, id) ∈ f.remembered ↔ (f.idsAt h p).has id = true := by
  rw [← knows_eq]
  unfold remembered knows
  simp only [List.mem_flatMap, List.mem_map, Prod.exists, Prod.mk.injEq]
  constructor
  · rintro ⟨h', m, hm, p', s, hs, id', hid, rfl, rfl, rfl⟩
    rw [(GoMap.get_eq_some_iff _ _ _).2 hm]
    simp only
    rw [(GoMap.get_eq_some_iff _ _ _).2 hs]
    simp only
    rwa [← GoMap.mem_keys]
  · intro hk
    cases ht : f.forkTracker.get h with
    | none => simp [ht] at hk
    | some m =>
      rw [ht] at hk
      simp only at hk
      cases hm : m.get p with
      | none => simp [hm] at hk
      | some s =>
        rw [hm] at hk
        simp only at hk
        exact ⟨h, m, (GoMap.get_eq_some_iff _ _ _).1 ht, p, s, (GoMap.get_eq_some_iff _ _ _).1 hm,
          id, (GoMap.mem_keys _ _).2 hk, rfl, rfl, rfl⟩

theorem remembered_nodup (f : ForkWatchdog) : f.remembered.Nodup := by
  unfold remembered
  rw [List.nodup_flatMap]
  constructor
  · intro hp _
    rw [List.nodup_flatMap]
    constructor
    · intro pi _
      exact List.Nodup.map (fun a b e => by simpa using e) pi.2.keys_nodup
    · have := List.pairwise_map.1 hp.2.nodup
      refine this.imp ?_
      intro a b hab
      simp only [Function.onFun, List.disjoint_left, List.mem_map, not_exists, not_and]
      rintro x ⟨i, _, rfl⟩ j _ e
      simp at e
      exact hab e.1.symm
  · have := List.pairwise_map.1 f.forkTracker.nodup
    refine this.imp ?_
    intro a b hab
    simp only [Function.onFun, List.disjoint_left, List.mem_flatMap, List.mem_map, not_exists, not_and]
    rintro x ⟨q, _, i, _, rfl⟩ r _ j _ e
    simp at e
    exact hab e.1.symm

theorem survivors_append (a b : List WOp) (l : List Blk) :
    survivors (a ++ b) l = survivors b (survivors a l) := by
  induction a generalizing l with
  | nil => rfl
  | cons o a ih => cases o <;> simp [survivors, ih]

theorem knows_survivor (hist : List WOp) (h : UInt64) (p : PairKey) (id : Bytes)
    (hk : ((new.run hist).1.idsAt h p).has id = true) :
    ∃ b ∈ survivors hist [], (b.height, pairOf b, b.id) = (h, p, id) := by
  induction hist using List.reverseRecOn generalizing h p id with
  | nil => cases hk
  | append_singleton hist o ih =>
    rw [run_fst_snoc] at hk
    rw [survivors_append]
    cases o with
    | add c =>
      simp only [op] at hk
      rw [idsAt_add] at hk
      simp only [survivors, List.mem_append, List.mem_singleton]
      by_cases hs : h = c.height ∧ p = pairOf c
      · rw [if_pos hs] at hk
        simp only [GoMap.has_set, Bool.or_eq_true, decide_eq_true_eq] at hk
        rcases hk with hk | hk
        · exact ⟨c, Or.inr rfl, by rw [hs.1, hs.2, hk]⟩
        · obtain ⟨b, hb, e⟩ := ih h p id hk
          exact ⟨b, Or.inl hb, e⟩
      · rw [if_neg hs] at hk
        obtain ⟨b, hb, e⟩ := ih h p id hk
        exact ⟨b, Or.inl hb, e⟩
    | purge lib =>
      simp only [op] at hk
      rw [idsAt_purge] at hk
      by_cases hl : h ≤ lib
      · rw [if_pos hl] at hk; cases hk
      · rw [if_neg hl] at hk
        obtain ⟨b, hb, e⟩ := ih h p id hk
        refine ⟨b, ?_, e⟩
        simp only [survivors, List.mem_filter, decide_eq_true_eq]
        refine ⟨hb, ?_⟩
        simp only [Prod.mk.injEq] at e
        rw [e.1]
        exact UInt64.not_le.1 hl

theorem remembered_le (hist : List WOp) :
    (new.run hist).1.remembered.length ≤ (survivors hist []).length := by
  have : (new.run hist).1.remembered.length ≤
      ((survivors hist []).map fun b => (b.height, pairOf b, b.id)).length := by
    apply List.Subperm.length_le
    apply List.subperm_of_subset (remembered_nodup _)
    rintro ⟨h, p, id⟩ hm
    rw [mem_remembered] at hm
    obtain ⟨b, hb, e⟩ := knows_survivor hist h p id hm
    exact List.mem_map.2 ⟨b, hb, e⟩
  simpa using this

/-- Two states that record the same ids answer every further history alike. -/
theorem run_congr (f g : ForkWatchdog) (ops : List WOp)
    (h : ∀ k p id, (f.idsAt k p).has id = (g.idsAt k p).has id) : (f.run ops).2 = (g.run ops).2 := by
  induction ops generalizing f g with
  | nil => rfl
  | cons o ops ih =>
    have hadd : ∀ b k p id, ((f.addBlk b).1.idsAt k p).has id = ((g.addBlk b).1.idsAt k p).has id := by
      intro b k p id
      rw [idsAt_add, idsAt_add]
      split <;> simp [h]
    have hlen : ∀ (s t : GoSet Bytes), (∀ id, s.has id = t.has id) → s.len = t.len := by
      intro s t e
      rw [GoMap.len_eq_keys, GoMap.len_eq_keys]
      apply List.Perm.length_eq
      rw [List.perm_ext_iff_of_nodup s.keys_nodup t.keys_nodup]
      intro a; rw [GoMap.mem_keys, GoMap.mem_keys, e]
    cases o with
    | add b =>
      simp only [run, op]
      rw [ih _ _ (hadd b), add_result, add_result, hlen _ _ (hadd b b.height (pairOf b))]
    | purge lib =>
      simp only [run, op]
      rw [ih (f.purge lib) (g.purge lib) (by intro k p id; rw [idsAt_purge, idsAt_purge]; split <;> simp [h])]

theorem knows_dropUpTo (hist : List WOp) (lib h : UInt64) (p : PairKey) (id : Bytes) :
    ((new.run (dropUpTo lib hist)).1.idsAt h p).has id =
      if h ≤ lib then false else ((new.run hist).1.idsAt h p).has id := by
  induction hist using List.reverseRecOn generalizing h p id with
  | nil => split <;> rfl
  | append_singleton hist o ih =>
    have hd : dropUpTo lib (hist ++ [o]) = dropUpTo lib hist ++ dropUpTo lib [o] := by
      simp [dropUpTo]
    rw [hd, run_fst_snoc]
    cases o with
    | add b =>
      simp only [op]
      by_cases hb : lib < b.height
      · have : dropUpTo lib [WOp.add b] = [WOp.add b] := by simp [dropUpTo, hb]
        rw [this, run_fst_snoc]
        simp only [op]
        rw [idsAt_add, idsAt_add]
        by_cases hs : h = b.height ∧ p = pairOf b
        · rw [if_pos hs, if_pos hs]
          have : ¬ h ≤ lib := by rw [hs.1]; exact UInt64.not_le.2 hb
          simp [ih, this]
        · rw [if_neg hs, if_neg hs, ih]
      · have : dropUpTo lib [WOp.add b] = [] := by simp [dropUpTo, hb]
        rw [this, List.append_nil, ih, idsAt_add]
        by_cases hl : h ≤ lib
        · simp [hl]
        · have : ¬ (h = b.height ∧ p = pairOf b) := by
            rintro ⟨e, _⟩; exact hl (by rw [e]; exact UInt64.not_lt.1 hb)
          rw [if_neg this]
    | purge l =>
      have : dropUpTo lib [WOp.purge l] = [WOp.purge l] := by simp [dropUpTo]
      rw [this, run_fst_snoc]
      simp only [op]
      rw [idsAt_purge, idsAt_purge]
      by_cases h1 : h ≤ l <;> by_cases h2 : h ≤ lib <;> simp [h1, h2, ih]

end ForkWatchdog
end KP2P

import Verif.Model.TxCache
import Verif.Spec.TxCache

namespace KP2P
open Spec

namespace TxCache

/-- Representation invariant of the cache. -/
structure Inv (c : TxCache) : Prop where
  map_iff : ∀ id, c.txMap.has id = true ↔ ∃ it ∈ c.items, it.id = id
  nodup : (c.items.map TxItem.id).Nodup
  sorted : c.items.Pairwise (fun a b => a.timeAdded ≤ b.timeAdded)

/-- Relation between a cache and the specification log. `p` is the time of the last prune. -/
structure Rel (c : TxCache) (log : List Obs) (p : Time) : Prop where
  inv : Inv c
  le : ∀ it ∈ c.items, it.timeAdded ≤ p
  sound : ∀ it ∈ c.items, ∃ o ∈ log, o.id = it.id ∧ o.fresh = true ∧ o.time = it.timeAdded
  compl : ∀ o ∈ log, o.fresh = true →
    (∃ it ∈ c.items, it.id = o.id ∧ it.timeAdded = o.time) ∨ p - o.time > c.dur

theorem inv_new (dur : Int) : Inv (new dur) :=
  ⟨by intro id; simp [new], by simp [new], by simp [new]⟩

theorem drop_count_sorted (now dur : Int) (l : List TxItem)
    (hs : l.Pairwise (fun a b => a.timeAdded ≤ b.timeAdded)) :
    l.drop (l.countP (fun it => decide (now - it.timeAdded > dur))) =
      l.filter (fun it => decide (now - it.timeAdded ≤ dur)) := by
  induction l with
  | nil => simp
  | cons a l ih =>
    rw [List.pairwise_cons] at hs
    by_cases h : now - a.timeAdded > dur
    · have h' : ¬ (now - a.timeAdded ≤ dur) := by omega
      rw [List.countP_cons_of_pos (by simpa using h), List.drop_succ_cons, ih hs.2,
        List.filter_cons_of_neg (by simpa using h')]
    · have hz : l.countP (fun it => decide (now - it.timeAdded > dur)) = 0 := by
        rw [List.countP_eq_zero]
        intro x hx
        have := hs.1 x hx
        simp; omega
      have h' : now - a.timeAdded ≤ dur := by omega
      rw [List.countP_cons_of_neg (by simpa using h), hz, List.drop_zero]
      symm
      rw [List.filter_eq_self]
      intro x hx
      rcases List.mem_cons.1 hx with rfl | hx
      · simpa using h'
      · have := hs.1 x hx
        simp; omega

theorem pruneLoop_spec (now dur : Int) (l : List TxItem) (m : GoSet Bytes) (n : Nat) :
    (pruneLoop now dur l m n).2 = n + l.countP (fun it => decide (now - it.timeAdded > dur)) ∧
    ∀ id, (pruneLoop now dur l m n).1.has id = true ↔
      m.has id = true ∧ ∀ it ∈ l, it.id = id → now - it.timeAdded ≤ dur := by
  induction l generalizing m n with
  | nil => simp [pruneLoop]
  | cons a l ih =>
    unfold pruneLoop
    by_cases h : now - a.timeAdded > dur
    · rw [if_pos h]
      obtain ⟨h1, h2⟩ := ih (m.del a.id) (n + 1)
      refine ⟨by rw [h1, List.countP_cons_of_pos (by simpa using h)]; omega, ?_⟩
      intro id
      rw [h2 id]
      simp only [GoMap.has_del, Bool.and_eq_true, Bool.not_eq_true', decide_eq_false_iff_not,
        List.mem_cons, forall_eq_or_imp]
      constructor
      · rintro ⟨⟨h3, h4⟩, h5⟩
        exact ⟨h4, fun e => absurd e.symm h3, h5⟩
      · rintro ⟨h4, h3, h5⟩
        exact ⟨⟨fun e => by have := h3 e.symm; omega, h4⟩, h5⟩
    · rw [if_neg h]
      obtain ⟨h1, h2⟩ := ih m n
      refine ⟨by rw [h1, List.countP_cons_of_neg (by simpa using h)], ?_⟩
      intro id
      rw [h2 id]
      simp only [List.mem_cons, forall_eq_or_imp]
      constructor
      · rintro ⟨h4, h5⟩; exact ⟨h4, fun _ => by omega, h5⟩
      · rintro ⟨h4, _, h5⟩; exact ⟨h4, h5⟩

theorem prune_items (c : TxCache) (h : Inv c) (now : Time) :
    (c.prune now).items = c.items.filter (fun it => decide (now - it.timeAdded ≤ c.dur)) := by
  have hc := (pruneLoop_spec now c.dur c.items c.txMap 0).1
  rw [Nat.zero_add] at hc
  rw [← drop_count_sorted now c.dur c.items h.sorted]
  unfold prune
  simp only [hc]
  split
  · rfl
  · have : c.items.countP (fun it => decide (now - it.timeAdded > c.dur)) = 0 := by omega
    rw [this, List.drop_zero]

theorem eq_of_id_eq {l : List TxItem} (hn : (l.map TxItem.id).Nodup) {a b : TxItem}
    (ha : a ∈ l) (hb : b ∈ l) (h : a.id = b.id) : a = b := by
  induction l with
  | nil => cases ha
  | cons x l ih =>
    simp only [List.map_cons, List.nodup_cons] at hn
    rcases List.mem_cons.1 ha with ha' | ha' <;> rcases List.mem_cons.1 hb with hb' | hb'
    · rw [ha', hb']
    · subst ha'; exact absurd (List.mem_map.2 ⟨b, hb', h.symm⟩) hn.1
    · subst hb'; exact absurd (List.mem_map.2 ⟨a, ha', h⟩) hn.1
    · exact ih hn.2 ha' hb'

theorem prune_inv (c : TxCache) (h : Inv c) (now : Time) : Inv (c.prune now) := by
  have hi := prune_items c h now
  refine ⟨?_, ?_, ?_⟩
  · intro id
    have : (c.prune now).txMap = (pruneLoop now c.dur c.items c.txMap 0).1 := rfl
    rw [this, (pruneLoop_spec now c.dur c.items c.txMap 0).2 id, hi, h.map_iff]
    constructor
    · rintro ⟨⟨it, hit, rfl⟩, hall⟩
      exact ⟨it, List.mem_filter.2 ⟨hit, by simpa using hall it hit rfl⟩, rfl⟩
    · rintro ⟨it, hit, rfl⟩
      have := List.mem_filter.1 hit
      refine ⟨⟨it, this.1, rfl⟩, fun it' hit' e => ?_⟩
      have he := eq_of_id_eq h.nodup hit' this.1 e
      subst he
      simpa using this.2
  · rw [hi]
    exact List.Pairwise.sublist (List.Sublist.map _ List.filter_sublist) h.nodup
  · rw [hi]
    exact List.Pairwise.sublist List.filter_sublist h.sorted

theorem prune_rel (c : TxCache) (log : List Obs) (p now : Time) (h : Rel c log p) (hp : p ≤ now) :
    Rel (c.prune now) log now := by
  have hi := prune_items c h.inv now
  refine ⟨prune_inv c h.inv now, ?_, ?_, ?_⟩
  · intro it hit
    rw [hi] at hit
    have := h.le it (List.mem_filter.1 hit).1
    omega
  · intro it hit
    rw [hi] at hit
    exact h.sound it (List.mem_filter.1 hit).1
  · intro o ho hf
    have hd : (c.prune now).dur = c.dur := rfl
    rw [hd, hi]
    rcases h.compl o ho hf with ⟨it, hit, he, ht⟩ | hlt
    · by_cases hx : now - it.timeAdded ≤ c.dur
      · exact Or.inl ⟨it, List.mem_filter.2 ⟨hit, by simpa using hx⟩, he, ht⟩
      · right; omega
    · right; omega

/-- After the prune no record is expired. -/
theorem prune_live (c : TxCache) (h : Inv c) (now : Time) :
    ∀ it ∈ (c.prune now).items, now - it.timeAdded ≤ c.dur := by
  intro it hit
  rw [prune_items c h now] at hit
  simpa using (List.mem_filter.1 hit).2

theorem hit_iff (c : TxCache) (log : List Obs) (now : Time) (h : Rel c log now)
    (hl : ∀ it ∈ c.items, now - it.timeAdded ≤ c.dur) (id : Bytes) :
    c.txMap.has id = true ↔ SeenWithin c.dur log now id := by
  rw [h.inv.map_iff]
  constructor
  · rintro ⟨it, hit, rfl⟩
    obtain ⟨o, ho, h1, h2, h3⟩ := h.sound it hit
    exact ⟨o, ho, h1, h2, by rw [h3]; exact hl it hit⟩
  · rintro ⟨o, ho, h1, h2, h3⟩
    rcases h.compl o ho h2 with ⟨it, hit, he, _⟩ | hlt
    · exact ⟨it, hit, by rw [he, h1]⟩
    · omega

theorem rel_seen (c : TxCache) (log : List Obs) (now t : Time) (id : Bytes) (h : Rel c log now) :
    Rel c (log ++ [⟨t, id, false⟩]) now := by
  refine ⟨h.inv, h.le, ?_, ?_⟩
  · intro it hit
    obtain ⟨o, ho, h1⟩ := h.sound it hit
    exact ⟨o, List.mem_append_left _ ho, h1⟩
  · intro o ho hf
    rcases List.mem_append.1 ho with ho | ho
    · exact h.compl o ho hf
    · simp at ho; subst ho; cases hf

theorem addItem_rel (c : TxCache) (log : List Obs) (now : Time) (id : Bytes) (h : Rel c log now)
    (hn : c.txMap.has id = false) :
    ∃ c', c.addItem ⟨id, now⟩ = some c' ∧ c'.dur = c.dur ∧ c'.items = c.items ++ [⟨id, now⟩] ∧
      Rel c' (log ++ [⟨now, id, true⟩]) now := by
  refine ⟨{ c with txMap := c.txMap.set id (), items := c.items ++ [⟨id, now⟩] }, ?_, rfl, rfl, ?_⟩
  · unfold addItem
    have : ∀ last, c.items.getLast? = some last → ¬ (now < last.timeAdded) := by
      intro last hl
      have := h.le last (List.mem_of_getLast? hl)
      omega
    cases hl : c.items.getLast? with
    | none => simp
    | some last => simp [this last hl]
  · have hfresh : ¬ ∃ it ∈ c.items, it.id = id := by
      rw [← h.inv.map_iff, hn]; simp
    refine ⟨⟨?_, ?_, ?_⟩, ?_, ?_, ?_⟩
    · intro id'
      simp only [GoMap.has_set, Bool.or_eq_true, decide_eq_true_eq, h.inv.map_iff, List.mem_append,
        List.mem_singleton]
      constructor
      · rintro (rfl | ⟨it, hit, rfl⟩)
        · exact ⟨_, Or.inr rfl, rfl⟩
        · exact ⟨it, Or.inl hit, rfl⟩
      · rintro ⟨it, hit | rfl, rfl⟩
        · exact Or.inr ⟨it, hit, rfl⟩
        · exact Or.inl rfl
    · simp only [List.map_append, List.map_cons, List.map_nil]
      rw [List.nodup_append]
      refine ⟨h.inv.nodup, by simp, ?_⟩
      intro a ha b hb e
      simp only [List.mem_singleton] at hb
      subst hb; subst e
      obtain ⟨it, hit, e⟩ := List.mem_map.1 ha
      exact hfresh ⟨it, hit, e⟩
    · simp only
      rw [List.pairwise_append]
      refine ⟨h.inv.sorted, by simp, ?_⟩
      intro a ha b hb
      simp only [List.mem_singleton] at hb
      subst hb
      exact h.le a ha
    · intro it hit
      rcases List.mem_append.1 hit with hit | hit
      · exact h.le it hit
      · simp only [List.mem_singleton] at hit; subst hit; exact Int.le_refl _
    · intro it hit
      rcases List.mem_append.1 hit with hit | hit
      · obtain ⟨o, ho, h1⟩ := h.sound it hit
        exact ⟨o, List.mem_append_left _ ho, h1⟩
      · simp only [List.mem_singleton] at hit; subst hit
        exact ⟨⟨now, id, true⟩, by simp, rfl, rfl, rfl⟩
    · intro o ho hf
      rcases List.mem_append.1 ho with ho | ho
      · rcases h.compl o ho hf with ⟨it, hit, h1⟩ | hlt
        · exact Or.inl ⟨it, List.mem_append_left _ hit, h1⟩
        · exact Or.inr hlt
      · simp only [List.mem_singleton] at ho; subst ho
        exact Or.inl ⟨⟨id, now⟩, by simp, rfl, rfl⟩

theorem checkLoop_rel (now : Time) (txs : List Tx) (c : TxCache) (n : Nat) (log : List Obs)
    (hd : 0 ≤ c.dur) (h : Rel c log now) (hl : ∀ it ∈ c.items, now - it.timeAdded ≤ c.dur) :
    ∃ c', checkLoop now txs c n = some (c', n + (present c.dur now (txs.map (fun t => str t.id)) log).2) ∧
      c'.dur = c.dur ∧ (∀ it ∈ c'.items, now - it.timeAdded ≤ c.dur) ∧
      Rel c' (present c.dur now (txs.map (fun t => str t.id)) log).1 now := by
  induction txs generalizing c n log with
  | nil => exact ⟨c, by simp [checkLoop, present], rfl, hl, h⟩
  | cons tx txs ih =>
    have hh := hit_iff c log now h hl (str tx.id)
    unfold checkLoop
    simp only [List.map_cons, present]
    by_cases hs : c.txMap.has (str tx.id) = true
    · rw [if_pos hs, if_pos (hh.1 hs)]
      obtain ⟨c', h1, h2⟩ := ih c (n + 1) _ hd (rel_seen c log now now (str tx.id) h) hl
      refine ⟨c', ?_, h2⟩
      rw [h1]; simp only [Nat.add_assoc, Nat.add_comm 1]
    · rw [if_neg hs, if_neg (fun x => hs (hh.2 x))]
      obtain ⟨c1, h1, h2, h3, h4⟩ := addItem_rel c log now (str tx.id) h (by simpa using hs)
      rw [h1]
      simp only
      have hl1 : ∀ it ∈ c1.items, now - it.timeAdded ≤ c1.dur := by
        rw [h2, h3]
        intro it hit
        rcases List.mem_append.1 hit with hit | hit
        · exact hl it hit
        · simp only [List.mem_singleton] at hit; subst hit; simpa using hd
      obtain ⟨c', h5, h6, h7, h8⟩ := ih c1 n _ (by rw [h2]; exact hd) h4 hl1
      rw [h2] at h5 h6 h7 h8
      exact ⟨c', h5, h6, h7, h8⟩

theorem check_rel (c : TxCache) (now p : Time) (txs : List Tx) (log : List Obs)
    (hd : 0 ≤ c.dur) (h : Rel c log p) (hp : p ≤ now) :
    ∃ c', c.checkTransactions now txs =
        some (c', (present c.dur now (txs.map (fun t => str t.id)) log).2) ∧
      c'.dur = c.dur ∧ (∀ it ∈ c'.items, now - it.timeAdded ≤ c.dur) ∧
      Rel c' (present c.dur now (txs.map (fun t => str t.id)) log).1 now := by
  obtain ⟨c', h1, h2⟩ := checkLoop_rel now txs (c.prune now) 0 log hd (prune_rel c log p now h hp)
    (prune_live c h.inv now)
  exact ⟨c', by rw [checkTransactions, h1, Nat.zero_add]; rfl, h2⟩

theorem run_rel (calls : List (Time × List Tx)) (c : TxCache) (log : List Obs) (p : Time)
    (hd : 0 ≤ c.dur) (h : Rel c log p) (hp : ∀ x ∈ calls, p ≤ x.1)
    (hs : (calls.map Prod.fst).Pairwise (· ≤ ·)) :
    ∃ c', c.run calls = some (c', (history c.dur (idsOf calls) log).2) ∧ c'.dur = c.dur ∧
      ∃ p', Rel c' (history c.dur (idsOf calls) log).1 p' ∧ (∀ x ∈ calls, x.1 ≤ p') ∧ p ≤ p' ∧
        (calls ≠ [] → ∀ it ∈ c'.items, p' - it.timeAdded ≤ c.dur) ∧
        (∀ q, p ≤ q → (∀ x ∈ calls, x.1 ≤ q) → p' ≤ q) := by
  induction calls generalizing c log p with
  | nil =>
    exact ⟨c, rfl, rfl, p, h, by simp, Int.le_refl _, fun x => absurd rfl x, fun q hq _ => hq⟩
  | cons x calls ih =>
    obtain ⟨now, txs⟩ := x
    simp only [List.map_cons, List.pairwise_cons] at hs
    have hpn : p ≤ now := hp (now, txs) (List.mem_cons_self ..)
    obtain ⟨c1, h1, h2, h3, h4⟩ := check_rel c now p txs log hd h hpn
    obtain ⟨c2, h5, h6, p', h7, h8, h9, h10, h11⟩ := ih c1 _ now (by rw [h2]; exact hd) h4
      (fun y hy => hs.1 y.1 (List.mem_map.2 ⟨y, hy, rfl⟩)) hs.2
    refine ⟨c2, ?_, by rw [h6, h2], p', ?_, ?_, by omega, ?_, ?_⟩
    · unfold run
      rw [h1]
      simp only [bind, Option.bind, h5, pure, idsOf, List.map_cons, history, h2]
    · simp only [idsOf, List.map_cons, history]; rw [h2] at h7; exact h7
    · intro y hy
      rcases List.mem_cons.1 hy with rfl | hy
      · exact h9
      · exact h8 y hy
    · intro _ it hit
      by_cases hc : calls = []
      · subst hc
        have : p' ≤ now := h11 now (Int.le_refl _) (by simp)
        have e : c2 = c1 := by simp [run] at h5; exact h5.1.symm
        subst e
        have := h3 it hit
        omega
      · have := h10 hc it hit
        rw [h2] at this; exact this
    · intro q hq hall
      exact h11 q (hall _ (List.mem_cons_self ..)) (fun y hy => hall y (List.mem_cons_of_mem _ hy))

theorem rel_new (dur : Int) (p : Time) : Rel (new dur) [] p :=
  ⟨inv_new dur, by simp [new], by simp [new], by simp⟩

end TxCache
end KP2P

namespace KP2P.Spec

theorem present_append (dur : Int) (t : Time) (ids : List Bytes) (log : List Obs) :
    ∃ ext, (present dur t ids log).1 = log ++ ext := by
  induction ids generalizing log with
  | nil => exact ⟨[], by simp [present]⟩
  | cons id ids ih =>
    unfold present
    split
    · obtain ⟨e, he⟩ := ih (log ++ [⟨t, id, false⟩])
      exact ⟨⟨t, id, false⟩ :: e, by simp [he]⟩
    · obtain ⟨e, he⟩ := ih (log ++ [⟨t, id, true⟩])
      exact ⟨⟨t, id, true⟩ :: e, by simp [he]⟩

/-- A log in which every observation is classified according to its own past. -/
def Classified (dur : Int) (log : List Obs) : Prop :=
  ∀ pre o post, log = pre ++ o :: post → (o.fresh = false ↔ SeenWithin dur pre o.time o.id)

theorem classified_snoc (dur : Int) (log : List Obs) (o : Obs) (h : Classified dur log)
    (ho : o.fresh = false ↔ SeenWithin dur log o.time o.id) : Classified dur (log ++ [o]) := by
  intro pre o' post e
  rcases List.eq_nil_or_concat post with rfl | ⟨post', x, rfl⟩
  · have := List.append_inj_right' e (by simp)
    have h2 := List.append_inj_left' e (by simp)
    simp at this
    subst this; subst h2; exact ho
  · have e' : log ++ [o] = (pre ++ o' :: post') ++ [x] := by rw [e]; simp
    exact h pre o' post' (List.append_inj_left' e' (by simp))

theorem classified_present (dur : Int) (t : Time) (ids : List Bytes) (log : List Obs)
    (h : Classified dur log) : Classified dur (present dur t ids log).1 := by
  induction ids generalizing log with
  | nil => exact h
  | cons id ids ih =>
    unfold present
    split
    · rename_i hs
      exact ih _ (classified_snoc dur log _ h (by simpa using hs))
    · rename_i hs
      exact ih _ (classified_snoc dur log _ h (by simpa using hs))

theorem classified_history (dur : Int) (calls : List (Time × List Bytes)) (log : List Obs)
    (h : Classified dur log) : Classified dur (history dur calls log).1 := by
  induction calls generalizing log with
  | nil => exact h
  | cons c calls ih => exact ih _ (classified_present dur c.1 c.2 log h)

theorem history_append (dur : Int) (a b : List (Time × List Bytes)) (log : List Obs) :
    history dur (a ++ b) log =
      ((history dur b (history dur a log).1).1,
       (history dur a log).2 ++ (history dur b (history dur a log).1).2) := by
  induction a generalizing log with
  | nil => simp [history]
  | cons c a ih => simp [history, ih]

end KP2P.Spec

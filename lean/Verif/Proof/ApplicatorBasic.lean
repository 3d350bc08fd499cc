import Verif.Spec.Applicator
import Mathlib.Data.List.Nodup
import Mathlib.Data.List.Perm.Basic
import Mathlib.Data.List.Induction
/-!
# Applicator: inversion of steps, effect of the helper functions
-/

namespace KP2P

namespace GoMap
variable {K V : Type} [DecidableEq K]

theorem entries_perm_of_get (m : GoMap K V) (k : K) (v : V) (h : m.get k = some v) :
    m.entries.Perm ((k, v) :: (m.del k).entries) := by
  rw [get_eq_some_iff] at h
  obtain ⟨l, hl⟩ := m
  simp only [del] at h ⊢
  induction l with
  | nil => cases h
  | cons e l ih =>
    simp only [List.map_cons, List.nodup_cons] at hl
    rcases List.mem_cons.1 h with h | h
    · subst h
      have : l.filter (fun e => decide (e.1 ≠ k)) = l := by
        rw [List.filter_eq_self]
        intro e he
        simp only [ne_eq, decide_eq_true_eq]
        intro hk
        exact hl.1 (List.mem_map.2 ⟨e, he, hk⟩)
      simp only [List.filter_cons, ne_eq, not_true_eq_false, decide_false, Bool.false_eq_true, if_false]
      simp only [ne_eq] at this
      rw [this]
    · have hne : e.1 ≠ k := by
        intro hk
        exact hl.1 (List.mem_map.2 ⟨(k, v), h, hk.symm⟩)
      simp only [List.filter_cons, ne_eq, hne, not_false_eq_true, decide_true, if_true]
      exact ((ih hl.2 h).cons e).trans (List.Perm.swap _ _ _)

end GoMap

namespace App

/-! ### Inversion of steps -/

theorem step_newBlock {o s i s'} (h : step o s (.newBlock i) = some s') :
    s.hung = false ∧ ∃ r b, s.newQ[i]? = some (r, b) ∧ s' = handleNewBlock o { s with newQ := s.newQ.eraseIdx i } r b := by
  simp only [step] at h
  split at h
  · rename_i r b h1 h2; simp only [Option.some.injEq] at h; exact ⟨h1, r, b, h2, h.symm⟩
  · cases h

theorem step_tryBlock {o s i s'} (h : step o s (.tryBlock i) = some s') :
    s.hung = false ∧ ∃ b f, s.tries[i]? = some (b, f) ∧ s' = handleTry o { s with tries := s.tries.eraseIdx i } b f := by
  simp only [step] at h
  split at h
  · rename_i r b h1 h2; simp only [Option.some.injEq] at h; exact ⟨h1, r, b, h2, h.symm⟩
  · cases h

theorem step_status {o s i s'} (h : step o s (.status i) = some s') :
    s.hung = false ∧ ∃ b e, s.apps[i]? = some ⟨b, .done e⟩ ∧
      s' = handleStatus o { s with apps := s.apps.eraseIdx i } b e := by
  simp only [step] at h
  split at h
  · rename_i r b h1 h2; simp only [Option.some.injEq] at h; exact ⟨h1, r, b, h2, h.symm⟩
  · cases h

theorem step_forkHeads {o s heads lib s'} (h : step o s (.forkHeads heads lib) = some s') :
    s.hung = false ∧ s' = handleForkHeads o s heads lib := by
  simp only [step] at h
  split at h
  · cases h
  · rename_i hh; simp only [Option.some.injEq] at h; exact ⟨by simpa using hh, h.symm⟩

theorem step_broadcast {o s id height s'} (h : step o s (.broadcast id height) = some s') :
    s.hung = false ∧ s' = handleBroadcast o s id height := by
  simp only [step] at h
  split at h
  · cases h
  · rename_i hh; simp only [Option.some.injEq] at h; exact ⟨by simpa using hh, h.symm⟩

theorem step_callerReturns {o s r s'} (h : step o s (.callerReturns r) = some s') :
    r ∈ s.waiting ∧ ∃ e, answerOf s.log r = some e ∧
      s' = { s with waiting := s.waiting.erase r, log := .returned r e :: s.log } := by
  simp only [step] at h
  split at h
  · rename_i hw
    split at h
    · rename_i e he; simp only [Option.some.injEq] at h; exact ⟨hw, e, he, h.symm⟩
    · cases h
  · cases h

theorem step_callerTimesOut {o s r s'} (h : step o s (.callerTimesOut r) = some s') :
    r ∈ s.waiting ∧
      s' = { s with waiting := s.waiting.erase r, log := .returned r (some (.sentinel .blockApplicationTimeout)) :: s.log } := by
  simp only [step] at h
  split at h
  · rename_i hw; simp only [Option.some.injEq] at h; exact ⟨hw, h.symm⟩
  · cases h

theorem step_delayDone {o s i s'} (h : step o s (.delayDone i) = some s') :
    ∃ b t t', s.apps[i]? = some ⟨b, .delaying t t'⟩ ∧ t ≤ s.now ∧ s' = { s with apps := s.apps.set i ⟨b, .queued⟩ } := by
  simp only [step] at h
  split at h
  · rename_i b t t' h1
    split at h
    · rename_i ht; simp only [Option.some.injEq] at h; exact ⟨b, t, t', h1, ht, h.symm⟩
    · cases h
  · cases h

theorem step_delayTimeout {o s i s'} (h : step o s (.delayTimeout i) = some s') :
    ∃ b t t', s.apps[i]? = some ⟨b, .delaying t t'⟩ ∧ t' ≤ s.now ∧
      s' = { s with apps := s.apps.set i ⟨b, .done none⟩, log := .delayTimeout b :: s.log } := by
  simp only [step] at h
  split at h
  · rename_i b t t' h1
    split at h
    · rename_i ht; simp only [Option.some.injEq] at h; exact ⟨b, t, t', h1, ht, h.symm⟩
    · cases h
  · cases h

theorem step_work {o s i s'} (h : step o s (.work i) = some s') :
    ∃ b, s.apps[i]? = some ⟨b, .queued⟩ ∧
      ((b.height ≤ s.lib ∧ s' = { s with apps := s.apps.set i ⟨b, .done (some (.sentinel .blockIrreversibility))⟩ }) ∨
       (¬ b.height ≤ s.lib ∧ s' = { s with apps := s.apps.set i ⟨b, .inRPC⟩, log := .submit b :: s.log })) := by
  simp only [step] at h
  split at h
  · rename_i b h1
    refine ⟨b, h1, ?_⟩
    split at h
    · rename_i ht; simp only [Option.some.injEq] at h; exact Or.inl ⟨ht, h.symm⟩
    · rename_i ht; simp only [Option.some.injEq] at h; exact Or.inr ⟨ht, h.symm⟩
  · cases h

theorem step_rpcReturn {o s i e s'} (h : step o s (.rpcReturn i e) = some s') :
    ∃ b, s.apps[i]? = some ⟨b, .inRPC⟩ ∧
      s' = { s with apps := s.apps.set i ⟨b, .done e⟩, log := .verdict b e :: s.log } := by
  simp only [step] at h
  split at h
  · rename_i b h1; simp only [Option.some.injEq] at h; exact ⟨b, h1, h.symm⟩
  · cases h

theorem step_retryDue {o s i s'} (h : step o s (.retryDue i) = some s') :
    ∃ t b, s.retries[i]? = some (t, b) ∧ t ≤ s.now ∧
      s' = trySend { s with retries := s.retries.eraseIdx i } b true := by
  simp only [step] at h
  split at h
  · rename_i t b h1
    split at h
    · rename_i ht; simp only [Option.some.injEq] at h; exact ⟨t, b, h1, ht, h.symm⟩
    · cases h
  · cases h

theorem step_tick {o s d s'} (h : step o s (.tick d) = some s') : s' = { s with now := s.now + d } := by
  simp only [step, Option.some.injEq] at h; exact h.symm

theorem step_applyBlock {o s b s'} (h : step o s (.applyBlock b) = some s') :
    (∃ e, (s.watchdog.addBlk b).2 = some e ∧ s' = { s with
        watchdog := (s.watchdog.addBlk b).1, nextReq := s.nextReq + 1
        log := .refused s.nextReq (some e) :: .call s.nextReq b :: s.log }) ∨
    ((s.watchdog.addBlk b).2 = none ∧ s' = { s with
        watchdog := (s.watchdog.addBlk b).1, nextReq := s.nextReq + 1
        newQ := s.newQ ++ [(s.nextReq, b)], waiting := s.nextReq :: s.waiting
        log := .call s.nextReq b :: s.log }) := by
  simp only [step, Option.some.injEq, applyBlock] at h
  cases hw : (s.watchdog.addBlk b).2 with
  | none => right; simp only [hw] at h; exact ⟨rfl, h.symm⟩
  | some e => left; simp only [hw] at h; exact ⟨e, rfl, h.symm⟩

theorem run_append (o : AppOpts) (s : AState) (a b : List Label) :
    run o s (a ++ b) = (run o s a).bind fun s' => run o s' b := by
  induction a generalizing s with
  | nil => rfl
  | cons l a ih =>
    simp only [List.cons_append, run]
    cases step o s l with
    | none => rfl
    | some s' => exact ih s'

theorem run_snoc {o s ls l s'} (h : run o s (ls ++ [l]) = some s') :
    ∃ s1, run o s ls = some s1 ∧ step o s1 l = some s' := by
  rw [run_append] at h
  cases h1 : run o s ls with
  | none => rw [h1] at h; cases h
  | some s1 =>
    rw [h1] at h
    simp only [Option.bind_some, run] at h
    cases h2 : step o s1 l with
    | none => rw [h2] at h; cases h
    | some s2 => rw [h2] at h; simp only [Option.some.injEq] at h; subst h; exact ⟨s1, rfl, h2⟩

/-- Induction over executions. -/
theorem run_induction {o : AppOpts} {s0 : AState} {P : AState → Prop} (h0 : P s0)
    (hs : ∀ s l s', P s → step o s l = some s' → P s') {ls : List Label} {s : AState}
    (hr : run o s0 ls = some s) : P s := by
  induction ls generalizing s0 with
  | nil => simp only [run, Option.some.injEq] at hr; subst hr; exact h0
  | cons l ls ih =>
    simp only [run] at hr
    cases hst : step o s0 l with
    | none => rw [hst] at hr; cases hr
    | some s1 => rw [hst] at hr; exact ih (hs _ _ _ h0 hst) hr

theorem reachable_induction {o : AppOpts} {P : AState → Prop} (h0 : ∀ hi lib now, P (init hi lib now))
    (hs : ∀ s l s', P s → step o s l = some s' → P s') {s : AState} (hr : Reachable o s) : P s := by
  obtain ⟨hi, lib, now, ls, hr⟩ := hr
  exact run_induction (h0 hi lib now) hs hr

/-! ### Children -/

/-- The requests sent by `checkBlockChildren`. -/
def kids (o : AppOpts) (s : AState) (id : Bytes) : List (Blk × Bool) :=
  match s.byPrev.get id with
  | none => []
  | some ch => ch.keys.filterMap fun k => (s.byId.get k).map fun e => (e.block, forceFor o s.now e.block)

theorem checkChildren_eq (o : AppOpts) (s : AState) (id : Bytes) :
    checkChildren o s id = { s with tries := s.tries ++ kids o s id } := by
  unfold checkChildren kids
  cases s.byPrev.get id with
  | none => simp
  | some ch =>
    simp only
    have key : ∀ (ks : List Bytes) (s : AState), ks.foldl (fun s k =>
        match s.byId.get k with
        | some entry => trySend s entry.block (forceFor o s.now entry.block)
        | none => s) s = { s with tries := s.tries ++ ks.filterMap (fun k =>
            (s.byId.get k).map (fun e => (e.block, forceFor o s.now e.block))) } := by
      intro ks
      induction ks with
      | nil => intro s; simp
      | cons k ks ih =>
        intro s
        rw [List.foldl_cons, ih]
        cases hk : s.byId.get k with
        | none => simp [hk]
        | some e => simp [hk, trySend]
    exact key _ _

theorem heads_eq (o : AppOpts) (heads : List Bytes) (s : AState) :
    heads.foldl (checkChildren o) s = { s with tries := s.tries ++ heads.flatMap (kids o s) } := by
  induction heads generalizing s with
  | nil => simp
  | cons h heads ih =>
    rw [List.foldl_cons, ih, checkChildren_eq]
    have : ∀ x, kids o { s with tries := s.tries ++ kids o s h } x = kids o s x := fun x => rfl
    simp [List.append_assoc]
    exact List.flatMap_congr fun x _ => this x

/-! ### Indexes -/

/-- `m` is an index of the relation `R`, without empty sets. -/
structure IndexOf {K : Type} [DecidableEq K] (m : GoMap K (GoSet Bytes)) (R : K → Bytes → Prop) : Prop where
  mem : ∀ k id, (∃ ids, m.get k = some ids ∧ ids.has id = true) ↔ R k id
  nonempty : ∀ k ids, m.get k = some ids → ids.len ≠ 0

theorem IndexOf.congr {K : Type} [DecidableEq K] {m : GoMap K (GoSet Bytes)} {R R' : K → Bytes → Prop}
    (h : IndexOf m R) (hr : ∀ k id, R k id ↔ R' k id) : IndexOf m R' :=
  ⟨fun k id => (h.mem k id).trans (hr k id), h.nonempty⟩

theorem indexOf_addTo {K : Type} [DecidableEq K] {m : GoMap K (GoSet Bytes)} {R : K → Bytes → Prop}
    (h : IndexOf m R) (k : K) (id : Bytes) :
    IndexOf (addTo m k id) fun k' id' => R k' id' ∨ (k' = k ∧ id' = id) := by
  have hget : ∀ k', (addTo m k id).get k' = if k' = k then some (((m.get k).getD ∅).set id ()) else m.get k' := by
    intro k'
    unfold addTo
    simp only [GoMap.get_set]
    by_cases hk : k' = k
    · subst hk
      cases hg : m.get k' with
      | none => simp [GoMap.has_eq, hg]
      | some v => simp [GoMap.has_eq, hg]
    · rw [if_neg hk, if_neg hk]
      split
      · rfl
      · simp [hk]
  refine ⟨fun k' id' => ?_, fun k' ids hi => ?_⟩
  · rw [hget, ← h.mem]
    by_cases hk : k' = k
    · subst hk
      simp only [if_true, Option.some.injEq, exists_eq_left', GoMap.has_set, Bool.or_eq_true, decide_eq_true_eq,
        true_and]
      cases hg : m.get k' with
      | none => simp
      | some v => simp [or_comm]
    · simp [hk]
  · rw [hget] at hi
    split at hi
    · simp only [Option.some.injEq] at hi
      subst hi
      intro hl
      rw [GoMap.len_eq_zero_iff] at hl
      have := hl id
      simp at this
    · exact h.nonempty _ _ hi

theorem indexOf_dropFrom {K : Type} [DecidableEq K] {m : GoMap K (GoSet Bytes)} {R : K → Bytes → Prop}
    (h : IndexOf m R) (k : K) (id : Bytes) :
    IndexOf (dropFrom m k id) fun k' id' => R k' id' ∧ ¬ (k' = k ∧ id' = id) := by
  unfold dropFrom
  cases hg : m.get k with
  | none =>
    simp only
    refine h.congr fun k' id' => ⟨fun hr => ⟨hr, ?_⟩, fun hr => hr.1⟩
    rintro ⟨rfl, rfl⟩
    obtain ⟨ids, hi, _⟩ := (h.mem _ _).2 hr
    rw [hg] at hi; cases hi
  | some ids =>
    simp only
    split
    · rename_i hl
      rw [GoMap.len_eq_zero_iff] at hl
      refine ⟨fun k' id' => ?_, fun k' ids' hi => ?_⟩
      · rw [← h.mem]
        by_cases hk : k' = k
        · subst hk
          simp only [GoMap.get_del, if_true, reduceCtorEq, false_and, exists_false, true_and, false_iff, not_and,
            not_not]
          rintro ⟨ids', hi, hh⟩
          rw [hg] at hi; cases hi
          have := hl id'
          rw [GoMap.get_del] at this
          by_contra hne
          rw [if_neg hne] at this
          rw [GoMap.has_eq, this] at hh; cases hh
        · simp [hk]
      · simp only [GoMap.get_del, GoMap.get_set] at hi
        by_cases hk : k' = k
        · simp [hk] at hi
        · simp [hk] at hi; exact h.nonempty _ _ hi
    · rename_i hl
      refine ⟨fun k' id' => ?_, fun k' ids' hi => ?_⟩
      · rw [← h.mem]
        by_cases hk : k' = k
        · subst hk
          simp [hg, and_comm]
        · simp [hk]
      · simp only [GoMap.get_set] at hi
        by_cases hk : k' = k
        · simp [hk] at hi; subst hi; exact hl
        · simp [hk] at hi; exact h.nonempty _ _ hi

/-- The tables agree: C22's invariant. -/
structure Idx (s : AState) : Prop where
  key : ∀ id e, s.byId.get id = some e → e.block.id = id
  prev : IndexOf s.byPrev fun p id => ∃ e, s.byId.get id = some e ∧ e.block.previous = p
  height : IndexOf s.byHeight fun h id => ∃ e, s.byId.get id = some e ∧ e.block.height = h

theorem Idx.of_eq {s s' : AState} (h : Idx s) (h1 : s'.byId = s.byId) (h2 : s'.byPrev = s.byPrev)
    (h3 : s'.byHeight = s.byHeight) : Idx s' := by
  obtain ⟨a, b, c⟩ := h
  exact ⟨by rw [h1]; exact a, by rw [h1, h2]; exact b, by rw [h1, h3]; exact c⟩

theorem idx_addTables {s : AState} (h : Idx s) (r : Nat) (b : Blk) : Idx (addTables s r b) := by
  unfold addTables
  cases hg : s.byId.get b.id with
  | some old =>
    have hb := h.key _ _ hg
    refine ⟨fun id e he => ?_, h.prev.congr fun p id => ?_, h.height.congr fun p id => ?_⟩
    · simp only [GoMap.get_set] at he
      split at he
      · rename_i hid; cases he; rw [hid]; exact hb
      · exact h.key _ _ he
    · simp only [GoMap.get_set]
      by_cases hid : id = b.id
      · subst hid; simp [hg]
      · simp [hid]
    · simp only [GoMap.get_set]
      by_cases hid : id = b.id
      · subst hid; simp [hg]
      · simp [hid]
  | none =>
    refine ⟨fun id e he => ?_, (indexOf_addTo h.prev _ _).congr fun p id => ?_,
      (indexOf_addTo h.height _ _).congr fun p id => ?_⟩
    · simp only [GoMap.get_set] at he
      split at he
      · rename_i hid; cases he; exact hid.symm
      · exact h.key _ _ he
    · simp only [GoMap.get_set]
      by_cases hid : id = b.id
      · subst hid; simp [hg, eq_comm]
      · simp [hid]
    · simp only [GoMap.get_set]
      by_cases hid : id = b.id
      · subst hid; simp [hg, eq_comm]
      · simp [hid]

theorem idx_removeBlockEntry {s : AState} (h : Idx s) (id : Bytes) (e : Option Err) :
    Idx (removeBlockEntry s id e) := by
  unfold removeBlockEntry
  cases hg : s.byId.get id with
  | none => exact h
  | some entry =>
    refine ⟨fun id' e' he => ?_, (indexOf_dropFrom h.prev _ _).congr fun p id' => ?_,
      (indexOf_dropFrom h.height _ _).congr fun p id' => ?_⟩
    · simp only [answerAll, GoMap.get_del] at he
      split at he
      · cases he
      · exact h.key _ _ he
    · simp only [answerAll, GoMap.get_del]
      by_cases hid : id' = id
      · subst hid; simp [hg, eq_comm]
      · simp [hid]
    · simp only [answerAll, GoMap.get_del]
      by_cases hid : id' = id
      · subst hid; simp [hg, eq_comm]
      · simp [hid]

/-! ### Removal -/

/-- Remove several entries. -/
def removeAll (s : AState) (ids : List Bytes) (e : Option Err) : AState :=
  ids.foldl (fun s id => removeBlockEntry s id e) s

/-- Everything except the tables and the log is unchanged, and the log only grew by answers with error `e`. -/
structure OnlyRemoved (e : Option Err) (s s' : AState) : Prop where
  highest : s'.highest = s.highest
  lib : s'.lib = s.lib
  watchdog : s'.watchdog = s.watchdog
  pending : s'.pending = s.pending
  newQ : s'.newQ = s.newQ
  tries : s'.tries = s.tries
  retries : s'.retries = s.retries
  apps : s'.apps = s.apps
  waiting : s'.waiting = s.waiting
  nextReq : s'.nextReq = s.nextReq
  now : s'.now = s.now
  hung : s'.hung = s.hung
  log : ∃ rs, s'.log = rs.map (fun r => Obs.answer r e) ++ s.log ∧
    (s'.byId.entries.flatMap (fun x => x.2.chans) ++ rs).Perm (s.byId.entries.flatMap (fun x => x.2.chans))

theorem OnlyRemoved.refl (e : Option Err) (s : AState) : OnlyRemoved e s s :=
  ⟨rfl, rfl, rfl, rfl, rfl, rfl, rfl, rfl, rfl, rfl, rfl, rfl, [], by simp, by simp⟩

theorem OnlyRemoved.trans {e : Option Err} {s s' s'' : AState} (h : OnlyRemoved e s s') (h' : OnlyRemoved e s' s'') :
    OnlyRemoved e s s'' := by
  obtain ⟨rs, h1, h2⟩ := h.log
  obtain ⟨rs', h1', h2'⟩ := h'.log
  refine ⟨h'.highest.trans h.highest, h'.lib.trans h.lib, h'.watchdog.trans h.watchdog, h'.pending.trans h.pending,
    h'.newQ.trans h.newQ, h'.tries.trans h.tries, h'.retries.trans h.retries, h'.apps.trans h.apps,
    h'.waiting.trans h.waiting, h'.nextReq.trans h.nextReq, h'.now.trans h.now, h'.hung.trans h.hung,
    rs' ++ rs, by rw [h1', h1]; simp, ?_⟩
  rw [← List.append_assoc]
  exact (h2'.append_right rs).trans h2

theorem onlyRemoved_remove (s : AState) (id : Bytes) (e : Option Err) : OnlyRemoved e s (removeBlockEntry s id e) := by
  unfold removeBlockEntry
  cases hg : s.byId.get id with
  | none => exact OnlyRemoved.refl e s
  | some entry =>
    refine ⟨rfl, rfl, rfl, rfl, rfl, rfl, rfl, rfl, rfl, rfl, rfl, rfl, entry.chans.reverse, ?_, ?_⟩
    · simp [answerAll, List.map_reverse]
    · have := (s.byId.entries_perm_of_get id entry hg).flatMap_right (fun x => x.2.chans)
      refine List.Perm.trans ?_ this.symm
      simp only [answerAll, List.flatMap_cons]
      exact ((List.reverse_perm _).append_left _).trans List.perm_append_comm

theorem get_remove (s : AState) (id : Bytes) (e : Option Err) (k : Bytes) :
    (removeBlockEntry s id e).byId.get k = if k = id then none else s.byId.get k := by
  unfold removeBlockEntry
  cases hg : s.byId.get id with
  | none =>
    by_cases h : k = id
    · subst h; simp [hg]
    · simp [h]
  | some entry => simp [answerAll]

theorem removeAll_spec (ids : List Bytes) (e : Option Err) (s : AState) (h : Idx s) :
    Idx (removeAll s ids e) ∧ OnlyRemoved e s (removeAll s ids e) ∧
      ∀ k, (removeAll s ids e).byId.get k = if k ∈ ids then none else s.byId.get k := by
  induction ids generalizing s with
  | nil => exact ⟨h, OnlyRemoved.refl e s, by simp [removeAll]⟩
  | cons id ids ih =>
    obtain ⟨h1, h2, h3⟩ := ih (removeBlockEntry s id e) (idx_removeBlockEntry h id e)
    refine ⟨h1, (onlyRemoved_remove s id e).trans h2, fun k => ?_⟩
    show (removeAll (removeBlockEntry s id e) ids e).byId.get k = _
    rw [h3, get_remove]
    by_cases hk : k = id
    · simp [hk]
    · by_cases hk' : k ∈ ids <;> simp [hk, hk']

/-- The eviction loop over a list of heights. -/
theorem evict_spec (hs : List UInt64) (s : AState) (h : Idx s) :
    Idx (hs.foldl evictHeight s) ∧
    OnlyRemoved (some (.sentinel .blockIrreversibility)) s (hs.foldl evictHeight s) ∧
    ∀ k, (hs.foldl evictHeight s).byId.get k =
      (s.byId.get k).bind fun e => if e.block.height ∈ hs then none else some e := by
  induction hs generalizing s with
  | nil => exact ⟨h, OnlyRemoved.refl _ s, fun k => by cases hk : s.byId.get k <;> simp [hk]⟩
  | cons x hs ih =>
    have hx : Idx (evictHeight s x) ∧ OnlyRemoved (some (.sentinel .blockIrreversibility)) s (evictHeight s x) ∧
        ∀ k, (evictHeight s x).byId.get k = (s.byId.get k).bind fun e => if e.block.height = x then none else some e := by
      unfold evictHeight
      cases hg : s.byHeight.get x with
      | none =>
        refine ⟨h, OnlyRemoved.refl _ s, fun k => ?_⟩
        cases hk : s.byId.get k with
        | none => rfl
        | some e =>
          simp only [Option.bind_some]
          rw [if_neg]
          intro he
          obtain ⟨ids, hi, _⟩ := (h.height.mem x k).2 ⟨e, hk, he⟩
          rw [hg] at hi; cases hi
      | some ids =>
        obtain ⟨h1, h2, h3⟩ := removeAll_spec ids.keys (some (.sentinel .blockIrreversibility)) s h
        refine ⟨h1, h2, fun k => ?_⟩
        refine (h3 k).trans ?_
        have hm : k ∈ ids.keys ↔ ∃ e, s.byId.get k = some e ∧ e.block.height = x := by
          rw [GoMap.mem_keys, ← h.height.mem]
          constructor
          · intro hh; exact ⟨ids, hg, hh⟩
          · rintro ⟨ids', hi, hh⟩; rw [hg] at hi; cases hi; exact hh
        cases hk : s.byId.get k with
        | none => simp
        | some e =>
          rw [hk] at hm
          simp only [Option.some.injEq, exists_eq_left'] at hm
          simp [hm]
    obtain ⟨a, b, c⟩ := hx
    obtain ⟨h1, h2, h3⟩ := ih (evictHeight s x) a
    refine ⟨h1, b.trans h2, fun k => ?_⟩
    rw [List.foldl_cons, h3, c]
    cases hk : s.byId.get k with
    | none => rfl
    | some e =>
      by_cases he : e.block.height = x
      · simp [he]
      · by_cases he' : e.block.height ∈ hs <;> simp [he, he']

theorem mem_heights (oldLib lib h : UInt64) :
    h ∈ heights oldLib lib ↔ (oldLib + 1).toNat ≤ h.toNat ∧ h.toNat ≤ lib.toNat := by
  unfold heights
  simp only [List.mem_map, List.mem_range]
  have hlib := lib.toNat_lt
  constructor
  · rintro ⟨i, hi, rfl⟩
    rw [UInt64.toNat_ofNat', Nat.mod_eq_of_lt (by omega)]
    omega
  · rintro ⟨h1, h2⟩
    refine ⟨h.toNat - (oldLib + 1).toNat, by omega, ?_⟩
    apply UInt64.toNat_inj.1
    rw [UInt64.toNat_ofNat', Nat.mod_eq_of_lt (by omega)]
    omega

/-! ### The log during evictions (no assumption on the tables) -/

/-- The second log extends the first by answers only. -/
def OnlyAnswers (l l' : List Obs) : Prop :=
  ∃ rs, l' = rs ++ l ∧ ∀ x ∈ rs, match x with | .answer _ _ => True | _ => False

theorem OnlyAnswers.refl (l : List Obs) : OnlyAnswers l l := ⟨[], rfl, by simp⟩

theorem OnlyAnswers.trans {a b c : List Obs} (h : OnlyAnswers a b) (h' : OnlyAnswers b c) : OnlyAnswers a c := by
  obtain ⟨r1, rfl, h1⟩ := h
  obtain ⟨r2, rfl, h2⟩ := h'
  refine ⟨r2 ++ r1, by simp, fun x hx => ?_⟩
  rcases List.mem_append.1 hx with hx | hx
  · exact h2 x hx
  · exact h1 x hx

theorem onlyAnswers_remove (s : AState) (id : Bytes) (e : Option Err) :
    OnlyAnswers s.log (removeBlockEntry s id e).log := by
  obtain ⟨rs, hl, _⟩ := (onlyRemoved_remove s id e).log
  refine ⟨_, hl, fun x hx => ?_⟩
  obtain ⟨r, _, rfl⟩ := List.mem_map.1 hx
  trivial

theorem onlyAnswers_evict (hs : List UInt64) (s : AState) : OnlyAnswers s.log (hs.foldl evictHeight s).log := by
  induction hs generalizing s with
  | nil => exact OnlyAnswers.refl _
  | cons h hs ih =>
    rw [List.foldl_cons]
    refine OnlyAnswers.trans ?_ (ih _)
    unfold evictHeight
    split
    · exact OnlyAnswers.refl _
    · rename_i ids hids
      clear hids ih
      generalize ids.keys = ks
      induction ks generalizing s with
      | nil => exact OnlyAnswers.refl _
      | cons k ks ih' =>
        rw [List.foldl_cons]
        exact OnlyAnswers.trans (onlyAnswers_remove s k _) (ih' _)

end App
end KP2P

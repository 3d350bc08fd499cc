import Verif.Spec.SyncRun
import Verif.Proof.CatchUp
/-!
# Lemmas for the session at work (C132)
-/

namespace KP2P

namespace App

/-- A call is logged only when it is made. -/
theorem call_origin {o : AppOpts} {s s' : AState} {l : Label} (hinv : Inv o s) (hst : step o s l = some s') {r : Nat} {b : Blk}
    (hv : Obs.call r b ∈ s'.log) (hl : ∀ b, l ≠ .applyBlock b) : Obs.call r b ∈ s.log := by
  cases l with
  | applyBlock b => exact absurd rfl (hl b)
  | callerReturns r => obtain ⟨_, e, _, rfl⟩ := step_callerReturns hst; simpa using hv
  | callerTimesOut r => obtain ⟨_, rfl⟩ := step_callerTimesOut hst; simpa using hv
  | newBlock i =>
    obtain ⟨_, r, b, hq, rfl⟩ := step_newBlock hst
    unfold handleNewBlock at hv
    cases ha : admission o { s with newQ := s.newQ.eraseIdx i } b with
    | some e => rw [ha] at hv; simpa [answerAll] using hv
    | none =>
      rw [ha] at hv
      simp only at hv
      rcases addBlockEntry_cases { s with newQ := s.newQ.eraseIdx i } r b with ⟨_, he⟩ | ⟨_, _, he⟩
      · rw [he] at hv; simpa using hv
      · rw [he] at hv
        obtain ⟨m, p, hh', hf⟩ := addTables_frame { s with newQ := s.newQ.eraseIdx i } r b
        rw [hf] at hv; exact hv
  | forkHeads heads lib =>
    obtain ⟨_, rfl⟩ := step_forkHeads hst
    rw [handleForkHeads_eq] at hv
    obtain ⟨_, h2, _⟩ := evict_spec (heights s.lib lib)
      { s with lib := lib, watchdog := s.watchdog.purge lib, tries := s.tries ++ heads.flatMap (kids o s) }
      (hinv.idx.of_eq rfl rfl rfl)
    obtain ⟨rs, hl, _⟩ := h2.log
    rw [hl] at hv
    simpa using hv
  | broadcast id height =>
    obtain ⟨_, rfl⟩ := step_broadcast hst
    rw [handleBroadcast_eq] at hv; exact hv
  | tryBlock i =>
    obtain ⟨_, b, f, ht, rfl⟩ := step_tryBlock hst
    unfold handleTry at hv
    split at hv
    · split at hv <;> exact hv
    · simpa using hv
  | status i =>
    obtain ⟨_, b, e, ha, rfl⟩ := step_status hst
    rcases handleStatus_cases o { s with apps := s.apps.eraseIdx i } b e with ⟨_, hs⟩ | ⟨_, _, hs⟩ | ⟨_, _, hs⟩
    · rw [hs] at hv; simpa [trySend, afterStatus] using hv
    · rw [hs] at hv; simpa [afterStatus] using hv
    · rw [hs, log_remove] at hv
      simpa [afterStatus] using hv
  | delayDone i => obtain ⟨b, t, t', ha, _, rfl⟩ := step_delayDone hst; exact hv
  | delayTimeout i => obtain ⟨b, t, t', ha, _, rfl⟩ := step_delayTimeout hst; simpa using hv
  | work i =>
    obtain ⟨b, ha, ⟨_, rfl⟩ | ⟨hl, rfl⟩⟩ := step_work hst
    · exact hv
    · simpa using hv
  | rpcReturn i e' =>
    obtain ⟨b, ha, rfl⟩ := step_rpcReturn hst
    simpa using hv
  | retryDue i => obtain ⟨t, b, _, _, rfl⟩ := step_retryDue hst; exact hv
  | tick d => rw [step_tick hst] at hv; exact hv

end App

namespace Link

/-- In steps in which nothing comes in, nobody calls. -/
theorem call_quiet {o : AppOpts} {P : State → Label → Prop} {s s' : State} {l : Label} (h : Reach o P s) (hq : Quiet l)
    (hst : step o s l = some s') {r : Nat} {b : Blk} (hv : Obs.call r b ∈ s'.app.log) : Obs.call r b ∈ s.app.log := by
  cases l with
  | accept id prev n => obtain ⟨_, _, rfl⟩ := step_accept hst; exact hv
  | deliver i =>
    obtain ⟨id, n, a, hn, ha, rfl⟩ := step_deliver hst
    exact App.call_origin (reach_inv h).inv ha hv (by rintro _ ⟨⟩)
  | act l =>
    obtain ⟨a, ha, rfl, _⟩ := step_act hst
    exact App.call_origin (reach_inv h).inv ha hv (by rintro b rfl; exact hq)

end Link

namespace PeerConn
open KP2P.Spec.PeerConn

/-- What is done with the blocks once they have come (peer_connection.go:161-190). -/
def closing (bs : List RawBlock) : Outcome → Outcome
  | .ok => match bs.getLast? with
    | none => .panic
    | some b => match b.header with
      | none => .panic
      | some _ => .ok
  | x => x

theorem fetch_shape (o : Opts) (e : SyncEnv) (id : Bytes) (head : UInt64) :
    ∃ pre, applied pre = [] ∧ ((∃ out, out ≠ .panic ∧ ∀ a synced, (fetch o { e with apply := a } synced id head).calls = pre ∧
      (fetch o { e with apply := a } synced id head).out = out) ∨
    ∃ bs, ∀ a synced, (fetch o { e with apply := a } synced id head).calls = pre ++ (applyLoop a 0 bs).1 ∧
      (fetch o { e with apply := a } synced id head).out = closing bs (applyLoop a 0 bs).2) := by
  refine ⟨[Call.peerBlocks id (e.lib.height + 1) (toRequest o e.lib.height head).toUInt32], rfl, ?_⟩
  cases hb : e.blocks id (e.lib.height + 1) (toRequest o e.lib.height head).toUInt32 with
  | error err => exact Or.inl ⟨.err err, (by rintro ⟨⟩), fun a synced => by unfold fetch; simp [hb]⟩
  | ok bs =>
    refine Or.inr ⟨bs, fun a synced => ?_⟩
    unfold fetch closing
    simp only [hb]
    cases (applyLoop a 0 bs).2 with
    | err x => exact ⟨rfl, rfl⟩
    | panic => exact ⟨rfl, rfl⟩
    | ok =>
      simp only
      cases bs.getLast? with
      | none => exact ⟨rfl, rfl⟩
      | some x => simp only; cases x.header <;> exact ⟨rfl, rfl⟩

/-- A round asks its questions, whatever becomes of the blocks, and then applies the blocks it got, if any. -/
theorem sync_shape (o : Opts) (e : SyncEnv) :
    ∃ pre, applied pre = [] ∧ ((∃ out, out ≠ .panic ∧ ∀ a synced, (requestSyncBlocks o { e with apply := a } synced).calls = pre ∧
      (requestSyncBlocks o { e with apply := a } synced).out = out) ∨
    ∃ bs, ∀ a synced, (requestSyncBlocks o { e with apply := a } synced).calls = pre ++ (applyLoop a 0 bs).1 ∧
      (requestSyncBlocks o { e with apply := a } synced).out = closing bs (applyLoop a 0 bs).2) := by
  unfold requestSyncBlocks
  simp only
  cases hh : e.peerHead with
  | error err => exact ⟨[.peerHead], rfl, Or.inl ⟨.err err, (by rintro ⟨⟩), fun a synced => ⟨rfl, rfl⟩⟩⟩
  | ok p =>
    obtain ⟨id, head⟩ := p
    have hf := fetch_shape o e id head
    simp only [hh] at hf ⊢
    by_cases hle : head ≤ e.lib.height
    · simp only [hle, if_true]; exact ⟨[.peerHead], rfl, Or.inl ⟨.ok, (by rintro ⟨⟩), fun a synced => ⟨rfl, rfl⟩⟩⟩
    · simp only [hle, if_false]
      have more : ∀ pre' : List Call, applied pre' = [] → ∃ pre, applied pre = [] ∧ ((∃ out, out ≠ .panic ∧ ∀ a synced,
          pre' ++ (fetch o { e with apply := a } synced id head).calls = pre ∧ (fetch o { e with apply := a } synced id head).out = out) ∨
          ∃ bs, ∀ a synced, pre' ++ (fetch o { e with apply := a } synced id head).calls = pre ++ (applyLoop a 0 bs).1 ∧
            (fetch o { e with apply := a } synced id head).out = closing bs (applyLoop a 0 bs).2) := by
        intro pre' h'
        obtain ⟨pre, hpre, hf⟩ := hf
        refine ⟨pre' ++ pre, by simp only [applied, List.filterMap_append] at h' hpre ⊢; rw [h', hpre]; rfl, ?_⟩
        rcases hf with ⟨out, hout, hf⟩ | ⟨bs, hf⟩
        · exact Or.inl ⟨out, hout, fun a synced => ⟨by rw [← (hf a synced).1, hh], by rw [← (hf a synced).2, hh]⟩⟩
        · exact Or.inr ⟨bs, fun a synced => ⟨by rw [List.append_assoc, ← (hf a synced).1, hh], by rw [← (hf a synced).2, hh]⟩⟩
      simp only [hh] at more
      cases hk : e.blocksByID id with
      | error err => exact ⟨_, rfl, Or.inl ⟨.err err, (by rintro ⟨⟩), fun a synced => ⟨rfl, rfl⟩⟩⟩
      | ok items =>
        simp only
        match items with
        | [] => exact ⟨_, rfl, Or.inl ⟨_, (by rintro ⟨⟩), fun a synced => ⟨rfl, rfl⟩⟩⟩
        | _ :: _ :: _ => exact ⟨_, rfl, Or.inl ⟨_, (by rintro ⟨⟩), fun a synced => ⟨rfl, rfl⟩⟩⟩
        | [n] =>
          simp only
          by_cases hn : n ≠ 0
          · simp only [hn, if_true, ne_eq, not_false_eq_true]; exact ⟨_, rfl, Or.inl ⟨.ok, (by rintro ⟨⟩), fun a synced => ⟨rfl, rfl⟩⟩⟩
          · simp only [hn, if_false]
            by_cases hl : e.lib.height > 0
            · simp only [hl, if_true]
              cases ha : e.ancestor id e.lib.height with
              | error err => exact ⟨_, rfl, Or.inl ⟨.err err, (by rintro ⟨⟩), fun a synced => ⟨rfl, rfl⟩⟩⟩
              | ok a =>
                simp only
                by_cases hae : a = e.lib.id
                · simp only [hae, if_true]; exact more _ rfl
                · simp only [hae, if_false]; exact ⟨_, rfl, Or.inl ⟨_, (by rintro ⟨⟩), fun a synced => ⟨rfl, rfl⟩⟩⟩
            · simp only [hl, if_false]; exact more _ rfl

/-- One turn of the loop that goes on. -/
theorem applyLoop_next {a : Nat → RawBlock → Option Err} {i : Nat} {b : RawBlock} {bs : List RawBlock} (hb : b.header.isSome = true)
    (hg : SyncRun.goesOn (a i b) = true) : applyLoop a i (b :: bs) = (.applyBlock b :: (applyLoop a (i + 1) bs).1, (applyLoop a (i + 1) bs).2) := by
  obtain ⟨h, hh⟩ := Option.isSome_iff_exists.1 hb
  simp only [applyLoop, hh]
  cases ha : a i b with
  | none => rfl
  | some e =>
    rw [ha] at hg
    simp only [SyncRun.goesOn, Bool.and_eq_true, Bool.not_eq_true'] at hg
    simp [hg.1.1, hg.1.2, hg.2]

/-- One turn of the loop that ends it. -/
theorem applyLoop_ends {a : Nat → RawBlock → Option Err} {i : Nat} {b : RawBlock} {bs : List RawBlock} (hb : b.header.isSome = true)
    (hg : SyncRun.goesOn (a i b) = false) : ∃ e, applyLoop a i (b :: bs) = ([.applyBlock b], .err e) := by
  obtain ⟨h, hh⟩ := Option.isSome_iff_exists.1 hb
  simp only [applyLoop, hh]
  cases ha : a i b with
  | none => rw [ha] at hg; cases hg
  | some e =>
    rw [ha] at hg
    simp only
    by_cases h1 : e.is .localRPCTimeout = true
    · exact ⟨e, by simp [h1]⟩
    · by_cases h2 : e.is .forkBomb = true
      · exact ⟨e, by simp [h1, h2]⟩
      · by_cases h3 : e.is .blockIrreversibility = true
        · simp [SyncRun.goesOn, h1, h2, h3] at hg
        · exact ⟨_, by simp [h1, h2, h3]; rfl⟩

theorem applyLoop_cons (a : Nat → RawBlock → Option Err) (i : Nat) (b : RawBlock) (bs : List RawBlock) :
    ∃ cs, applied (applyLoop a i (b :: bs)).1 = b :: cs := by
  cases hb : b.header with
  | none => exact ⟨[], by simp [applyLoop, hb, applied]⟩
  | some h =>
    cases hg : SyncRun.goesOn (a i b) with
    | true => rw [applyLoop_next (by rw [hb]; rfl) hg]; exact ⟨_, rfl⟩
    | false =>
      obtain ⟨e, he⟩ := applyLoop_ends (bs := bs) (by rw [hb]; rfl) hg
      rw [he]; exact ⟨[], rfl⟩

/-- If every block lets the loop go on, it goes as it would if all blocks were applied. -/
theorem applyLoop_all (a : Nat → RawBlock → Option Err) (bs : List RawBlock) (i : Nat)
    (h : ∀ j b, (applied (applyLoop (fun _ _ => none) i bs).1)[j]? = some b → b.header.isSome = true → SyncRun.goesOn (a (i + j) b) = true) :
    applyLoop a i bs = applyLoop (fun _ _ => none) i bs := by
  induction bs generalizing i with
  | nil => rfl
  | cons b bs ih =>
    cases hb : b.header with
    | none => simp [applyLoop, hb]
    | some hd =>
      have hb' : b.header.isSome = true := by rw [hb]; rfl
      have e : applyLoop (fun _ _ => none) i (b :: bs) = (.applyBlock b :: (applyLoop (fun _ _ => none) (i + 1) bs).1,
        (applyLoop (fun _ _ => none) (i + 1) bs).2) := applyLoop_next hb' rfl
      rw [e] at h ⊢
      rw [applyLoop_next hb' (show SyncRun.goesOn (a i b) = true from h 0 b rfl hb'), ih (i + 1) fun j c hj hc => ?_]
      have := h (j + 1) c (by simpa [applied] using hj) hc
      rwa [show i + (j + 1) = i + 1 + j by omega] at this

/-- A block without header ends the loop with a panic, and nothing comes after it. -/
theorem applyLoop_panic (bs : List RawBlock) (i : Nat) (xs : List RawBlock) (b : RawBlock) (ys : List RawBlock) (hb : b.header = none)
    (h : applied (applyLoop (fun _ _ => none) i bs).1 = xs ++ b :: ys) : ys = [] ∧ (applyLoop (fun _ _ => none) i bs).2 = .panic := by
  induction bs generalizing i xs with
  | nil => simp [applyLoop, applied] at h
  | cons c bs ih =>
    cases hc : c.header with
    | none =>
      simp only [applyLoop, hc] at h ⊢
      cases xs with
      | nil => simp [applied] at h; exact ⟨h.2, trivial⟩
      | cons x xs => simp [applied] at h
    | some hd =>
      have hc' : c.header.isSome = true := by rw [hc]; rfl
      have e : applyLoop (fun _ _ => none) i (c :: bs) = (.applyBlock c :: (applyLoop (fun _ _ => none) (i + 1) bs).1,
        (applyLoop (fun _ _ => none) (i + 1) bs).2) := applyLoop_next hc' rfl
      rw [e] at h ⊢
      cases xs with
      | nil =>
        have : c = b := by simp [applied] at h; exact h.1
        rw [this, hb] at hc; cases hc
      | cons x xs => exact ih (i + 1) xs (by simp [applied] at h; exact h.2)

/-- The loop up to a result that ends it. -/
theorem applyLoop_stop (a : Nat → RawBlock → Option Err) (bs : List RawBlock) (i : Nat) (xs : List RawBlock) (b : RawBlock)
    (ys : List RawBlock) (hb : b.header.isSome = true) (h : applied (applyLoop (fun _ _ => none) i bs).1 = xs ++ b :: ys)
    (hx : ∀ j c, xs[j]? = some c → SyncRun.goesOn (a (i + j) c) = true) (hs : SyncRun.goesOn (a (i + xs.length) b) = false) :
    applied (applyLoop a i bs).1 = xs ++ [b] ∧ ∃ e, (applyLoop a i bs).2 = .err e := by
  induction bs generalizing i xs with
  | nil => simp [applyLoop, applied] at h
  | cons c bs ih =>
    obtain ⟨cs, hcs⟩ := applyLoop_cons (fun _ _ => none) i c bs
    rw [h] at hcs
    cases xs with
    | nil =>
      cases hcs
      obtain ⟨e, he⟩ := applyLoop_ends (bs := bs) hb (show SyncRun.goesOn (a i b) = false from hs)
      rw [he]
      exact ⟨rfl, e, rfl⟩
    | cons x xs =>
      have hxc : x = c := (List.cons.inj hcs).1
      subst hxc
      cases hc : x.header with
      | none => have := congrArg List.length h; simp [applyLoop, hc, applied] at this
      | some hd =>
        have hc' : x.header.isSome = true := by rw [hc]; rfl
        have e : applyLoop (fun _ _ => none) i (x :: bs) = (.applyBlock x :: (applyLoop (fun _ _ => none) (i + 1) bs).1,
          (applyLoop (fun _ _ => none) (i + 1) bs).2) := applyLoop_next hc' rfl
        rw [e] at h
        obtain ⟨h1, e, h2⟩ := ih (i + 1) xs (by simpa [applied] using h)
          (fun j c hj => by
            have := hx (j + 1) c (by simpa using hj)
            rwa [show i + (j + 1) = i + 1 + j by omega] at this)
          (by rwa [List.length_cons, show i + (xs.length + 1) = i + 1 + xs.length by omega] at hs)
        rw [applyLoop_next hc' (show SyncRun.goesOn (a i x) = true from hx 0 x rfl)]
        refine ⟨?_, e, h2⟩
        show x :: applied (applyLoop a (i + 1) bs).1 = _
        rw [h1]; rfl

end PeerConn

namespace SyncRun
open KP2P.PeerConn KP2P.Spec.PeerConn KP2P.Spec.SyncRun

theorem goesOn_iff (r : Option Err) : goesOn r = true ↔ GoesOn r := by
  cases r with
  | none => exact ⟨fun _ => Or.inl rfl, fun _ => rfl⟩
  | some e =>
    simp only [goesOn, GoesOn, Bool.and_eq_true, Bool.not_eq_true', reduceCtorEq, Option.some.injEq, false_or, exists_eq_left']
    exact ⟨fun h => ⟨h.2, h.1.1, h.1.2⟩, fun h => ⟨⟨h.2.1, h.2.2⟩, h.1⟩⟩

theorem toBlk_none {b : RawBlock} : b.toBlk = none ↔ b.header = none := by simp [RawBlock.toBlk]

/-- How far the round has come. -/
def Tally (o : Opts) (s : State) (e : SyncEnv) : Prop :=
  (∀ x ∈ s.results, x.1.header.isSome = true) ∧
  match s.phase with
  | .handing todo => plan o e = s.results.map Prod.fst ++ todo ∧ plan o e ≠ [] ∧ ∀ x ∈ s.results, goesOn x.2 = true
  | .waiting _ b todo => plan o e = s.results.map Prod.fst ++ b :: todo ∧ b.header.isSome = true ∧ ∀ x ∈ s.results, goesOn x.2 = true
  | .idle => (plan o e = s.results.map Prod.fst ∧ (plan o e = [] → (allWell o e).out ≠ .panic) ∧ ∀ x ∈ s.results, goesOn x.2 = true) ∨
    ∃ old b r rest, s.results = old ++ [(b, r)] ∧ plan o e = old.map Prod.fst ++ b :: rest ∧ goesOn r = false ∧ ∀ x ∈ old, goesOn x.2 = true
  | .crashed => (plan o e = [] ∧ s.results = [] ∧ (allWell o e).out = .panic) ∨
    ∃ b todo, plan o e = s.results.map Prod.fst ++ b :: todo ∧ b.header = none ∧ ∀ x ∈ s.results, goesOn x.2 = true

theorem tally {o : Opts} {ao : AppOpts} {s : State} (h : Reached o ao s) : ∀ e, s.env = some e → Tally o s e := by
  induction h with
  | init s => intro e he; cases he
  | @step s s' l hr hst ih =>
    intro e he
    cases l with
    | ask e' =>
      simp only [step] at hst
      split at hst
      · split at hst
        · rename_i hp
          cases hst
          cases he
          refine ⟨fun _ hx => (by cases hx), ?_⟩
          simp only
          split
          · rename_i h; split at h <;> cases h
          · rename_i h; split at h <;> cases h
          · rename_i h
            split at h
            · cases h
            · rename_i hn; exact Or.inl ⟨hp, fun _ => hn, fun _ hx => (by cases hx)⟩
          · rename_i h
            split at h
            · rename_i hn; exact Or.inl ⟨hp, trivial, hn⟩
            · cases h
        · rename_i bs hne
          cases hst
          cases he
          refine ⟨fun _ hx => (by cases hx), rfl, ?_, fun _ hx => (by cases hx)⟩
          exact hne
      · cases hst
    | hand =>
      simp only [step] at hst
      split at hst
      · rename_i b todo hp
        split at hst
        · rename_i hb
          cases hst
          obtain ⟨h1, h2⟩ := ih e he
          rw [hp] at h2
          exact ⟨h1, Or.inr ⟨b, todo, h2.1, toBlk_none.1 hb, h2.2.2⟩⟩
        · rename_i x hb
          split at hst
          · cases hst
            obtain ⟨h1, h2⟩ := ih e he
            rw [hp] at h2
            refine ⟨h1, h2.1, ?_, h2.2.2⟩
            cases hh : b.header with
            | none => rw [toBlk_none.2 hh] at hb; cases hb
            | some _ => rfl
          · cases hst
      · cases hst
    | back r' =>
      simp only [step] at hst
      split at hst
      · rename_i r b todo hp
        split at hst
        · cases hst
          obtain ⟨h1, h2⟩ := ih e he
          rw [hp] at h2
          obtain ⟨hpl, hb, hg⟩ := h2
          refine ⟨fun x hx => ?_, ?_⟩
          · rcases List.mem_append.1 hx with hx | hx
            · exact h1 x hx
            · simp only [List.mem_singleton] at hx; rw [hx]; exact hb
          · simp only
            cases hr' : goesOn r' with
            | true =>
              simp only [if_true]
              refine ⟨by simpa using hpl, by rw [hpl]; simp, fun x hx => ?_⟩
              rcases List.mem_append.1 hx with hx | hx
              · exact hg x hx
              · simp only [List.mem_singleton] at hx; rw [hx]; exact hr'
            | false =>
              simp only [Bool.false_eq_true, if_false]
              exact Or.inr ⟨s.results, b, r', todo, rfl, hpl, hr', hg⟩
        · cases hst
      · cases hst
    | finish =>
      simp only [step] at hst
      split at hst
      · rename_i hp
        cases hst
        obtain ⟨h1, h2⟩ := ih e he
        rw [hp] at h2
        obtain ⟨hpl, hne, hg⟩ := h2
        exact ⟨h1, Or.inl ⟨by simpa using hpl, fun h => absurd h hne, hg⟩⟩
      · cases hst
    | sys l =>
      simp only [step, Option.map_eq_some_iff] at hst
      obtain ⟨t, _, rfl⟩ := hst
      exact ih e he

end SyncRun
end KP2P

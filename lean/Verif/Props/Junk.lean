import Verif.Spec.Junk
import Verif.Props.Framing
/-!
# C119: junk blocks do not keep out good ones
-/

namespace KP2P
open App Spec Spec.Framing Spec.Junk

namespace App

/-- Heights at which nothing waits: nothing is evicted. -/
theorem evict_none (hs : List UInt64) (s : AState) (h : ∀ x ∈ hs, s.byHeight.get x = none) : hs.foldl evictHeight s = s := by
  induction hs generalizing s with
  | nil => rfl
  | cons x hs ih =>
    have : evictHeight s x = s := by unfold evictHeight; rw [h x (by simp)]
    rw [List.foldl_cons, this]
    exact ih s fun y hy => h y (by simp [hy])

theorem byHeight_none {s : AState} (hi : Idx s) {x : UInt64} (h : ∀ w ∈ waitingBlocks s, w.height ≠ x) : s.byHeight.get x = none := by
  cases hg : s.byHeight.get x with
  | none => rfl
  | some ids =>
    exfalso
    obtain ⟨k, hk⟩ : ∃ k, ids.get k ≠ none := by
      by_contra hc
      push Not at hc
      exact hi.height.nonempty _ _ hg ((GoMap.len_eq_zero_iff _).2 hc)
    obtain ⟨e, he, hh⟩ := (hi.height.mem x k).1 ⟨ids, hg, by
      rw [GoMap.has_eq]; exact Option.isSome_iff_ne_none.2 hk⟩
    exact h _ ((mem_waitingBlocks hi _).2 ⟨e, by rw [hi.key k e he]; exact he, rfl⟩) hh

theorem kids_none {o : AppOpts} {s : AState} (hi : Idx s) {id : Bytes} (h : ∀ w ∈ waitingBlocks s, w.previous ≠ id) :
    kids o s id = [] := by
  refine List.eq_nil_iff_forall_not_mem.2 fun x hx => ?_
  obtain ⟨hw, hp, _⟩ := (mem_kids hi id x).1 hx
  exact h _ ((mem_waitingBlocks hi _).2 hw) hp

end App

/-- What a jammed node logs: calls, refusals, returns, and answers that send the caller away. -/
private def Away : Obs → Prop
  | .call _ _ => True
  | .refused _ _ => True
  | .returned _ _ => True
  | .answer _ e => e = some (.sentinel .maxPendingBlocks) ∨ e = some (.sentinel .maxHeight)
  | _ => False

private theorem toInt_pending {o : AppOpts} (h : o.maxPendingBlocks.toNat < 2 ^ 63) :
    o.maxPendingBlocks.toBitVec.toInt = (o.maxPendingBlocks.toNat : Int) := by
  rw [BitVec.toInt_eq_toNat_cond]
  have : o.maxPendingBlocks.toBitVec.toNat = o.maxPendingBlocks.toNat := rfl
  rw [this, if_pos (by omega)]

private theorem jam_step {o : AppOpts} (ho : o.maxPendingBlocks.toNat < 2 ^ 63) {s t : AState} {l : Label} (hinv : Inv o s)
    (hj : Jammed o s) (hu : Unconcerned (waitingBlocks s) l) (hst : step o s l = some t) :
    Jammed o t ∧ t.byId = s.byId ∧ ∃ new, t.log = new ++ s.log ∧ ∀ x ∈ new, Away x := by
  have mk : t.byId = s.byId → t.tries = s.tries → t.retries = s.retries → t.apps = s.apps → Jammed o t := by
    intro h1 h2 h3 h4
    refine ⟨?_, h2.trans hj.tries, h3.trans hj.retries, h4.trans hj.apps⟩
    have := hj.full
    unfold waitingBlocks at this ⊢
    rw [h1]; exact this
  cases l with
  | applyBlock b =>
    rcases step_applyBlock hst with ⟨e, _, rfl⟩ | ⟨_, rfl⟩
    · exact ⟨mk rfl rfl rfl rfl, rfl, [_, _], rfl, by simp [Away]⟩
    · exact ⟨mk rfl rfl rfl rfl, rfl, [_], rfl, by simp [Away]⟩
  | callerReturns r => obtain ⟨_, e, _, rfl⟩ := step_callerReturns hst; exact ⟨mk rfl rfl rfl rfl, rfl, [_], rfl, by simp [Away]⟩
  | callerTimesOut r => obtain ⟨_, rfl⟩ := step_callerTimesOut hst; exact ⟨mk rfl rfl rfl rfl, rfl, [_], rfl, by simp [Away]⟩
  | newBlock i =>
    obtain ⟨_, r, b, hq, rfl⟩ := step_newBlock hst
    have hfull : (s.byId.len : Int) ≥ o.maxPendingBlocks.toBitVec.toInt := by
      rw [toInt_pending ho]
      have := hj.full
      rw [waitingBlocks, List.length_map] at this
      exact_mod_cast this
    unfold handleNewBlock at mk ⊢
    unfold admission at mk ⊢
    by_cases hh : b.height > s.highest + o.maxHeightDelta
    · simp only [hh, if_true] at mk ⊢
      exact ⟨mk rfl rfl rfl rfl, rfl, [_], rfl, by simp [Away]⟩
    · simp only [hh, if_false, hfull, if_true] at mk ⊢
      exact ⟨mk rfl rfl rfl rfl, rfl, [_], rfl, by simp [Away]⟩
  | forkHeads heads lib =>
    obtain ⟨_, rfl⟩ := step_forkHeads hst
    rw [handleForkHeads_eq] at mk ⊢
    have hk : heads.flatMap (kids o s) = [] := by
      refine List.eq_nil_iff_forall_not_mem.2 fun x hx => ?_
      obtain ⟨id, hid, hx⟩ := List.mem_flatMap.1 hx
      rw [kids_none hinv.idx fun w hw he => (hu w hw).1 (he ▸ hid)] at hx
      cases hx
    rw [hk, List.append_nil] at mk ⊢
    rw [evict_none (heights s.lib lib) { s with lib := lib, watchdog := s.watchdog.purge lib, tries := s.tries } fun x hx => ?_] at mk ⊢
    · exact ⟨mk rfl rfl rfl rfl, rfl, [], rfl, by simp⟩
    all_goals
      refine byHeight_none (hinv.idx.of_eq rfl rfl rfl) fun w hw he => ?_
      have h1 := (hu w hw).2
      have h2 := ((mem_heights _ _ _).1 hx).2
      rw [he] at h1
      rw [UInt64.lt_iff_toNat_lt] at h1
      omega
  | broadcast id height =>
    obtain ⟨_, rfl⟩ := step_broadcast hst
    rw [handleBroadcast_eq, kids_none hinv.idx hu, List.append_nil] at mk ⊢
    exact ⟨mk rfl rfl rfl rfl, rfl, [], rfl, by simp⟩
  | tryBlock i => obtain ⟨_, b, f, ht, rfl⟩ := step_tryBlock hst; rw [hj.tries] at ht; simp at ht
  | status i => obtain ⟨_, b, e, ha, rfl⟩ := step_status hst; rw [hj.apps] at ha; simp at ha
  | delayDone i => obtain ⟨b, _, _, ha, _, rfl⟩ := step_delayDone hst; rw [hj.apps] at ha; simp at ha
  | delayTimeout i => obtain ⟨b, _, _, ha, _, rfl⟩ := step_delayTimeout hst; rw [hj.apps] at ha; simp at ha
  | work i => obtain ⟨b, ha, _⟩ := step_work hst; rw [hj.apps] at ha; simp at ha
  | rpcReturn i e => obtain ⟨b, ha, rfl⟩ := step_rpcReturn hst; rw [hj.apps] at ha; simp at ha
  | retryDue i => obtain ⟨_, b, ha, _⟩ := step_retryDue hst; rw [hj.retries] at ha; simp at ha
  | tick d => rw [step_tick hst] at mk ⊢; exact ⟨mk rfl rfl rfl rfl, rfl, [], rfl, by simp⟩

private theorem jam_run {o : AppOpts} (ho : o.maxPendingBlocks.toNat < 2 ^ 63) {s : AState} (hreach : Reachable o s) (hj : Jammed o s)
    (ls : List Label) (t : AState) (hu : ∀ l ∈ ls, Unconcerned (waitingBlocks s) l) (hr : App.run o s ls = some t) :
    Jammed o t ∧ t.byId = s.byId ∧ ∃ new, t.log = new ++ s.log ∧ ∀ x ∈ new, Away x := by
  obtain ⟨hi, lib, T0, pre, hpre⟩ := hreach
  induction ls using List.reverseRecOn generalizing t with
  | nil => cases hr; exact ⟨hj, rfl, [], rfl, by simp⟩
  | append_singleton ls l ih =>
    obtain ⟨u, hu1, hu2⟩ := run_snoc hr
    obtain ⟨h1, h2, new, h3, h4⟩ := ih u (fun l hl => hu l (by simp [hl])) hu1
    have hinv : Inv o u := inv_reachable ⟨hi, lib, T0, pre ++ ls, by rw [App.run_append, hpre]; exact hu1⟩
    have hw : waitingBlocks u = waitingBlocks s := by unfold waitingBlocks; rw [h2]
    obtain ⟨g1, g2, new', g3, g4⟩ := jam_step ho hinv h1 (hw ▸ hu l (by simp)) hu2
    refine ⟨g1, g2.trans h2, new' ++ new, by rw [g3, h3, List.append_assoc], fun x hx => ?_⟩
    rcases List.mem_append.1 hx with hx | hx
    · exact g4 x hx
    · exact h4 x hx

/-- C119, how it fails, for all executions: once the table is full of blocks with which nothing is under way, then for as long as the
chain reports neither a parent of one of them nor its height as irreversible, the same blocks keep waiting, not one block is submitted
to the chain, and every call that gets as far as an answer is sent away. -/
theorem C119_jammed_partial {o : AppOpts} (ho : o.maxPendingBlocks.toNat < 2 ^ 63) {s t : AState} (hreach : Reachable o s)
    (hj : Jammed o s) {ls : List Label} (hu : ∀ l ∈ ls, Unconcerned (waitingBlocks s) l) (hr : App.run o s ls = some t) :
    waitingBlocks t = waitingBlocks s ∧ Jammed o t ∧ ∃ new, t.log = new ++ s.log ∧ (∀ b, Obs.start b ∉ new ∧ Obs.submit b ∉ new) ∧
      ∀ r e, Obs.answer r e ∈ new → e = some (.sentinel .maxPendingBlocks) ∨ e = some (.sentinel .maxHeight) := by
  obtain ⟨h1, h2, new, h3, h4⟩ := jam_run ho hreach hj ls t hu hr
  refine ⟨by unfold waitingBlocks; rw [h2], h1, new, h3, fun b => ⟨fun h => ?_, fun h => ?_⟩, fun r e h => ?_⟩
  · exact (h4 _ h : False)
  · exact (h4 _ h : False)
  · exact h4 _ h

/-! ### Filling the table -/

/-- Made-up blocks: different ids, different parents, the same height. -/
def junk (h : UInt64) (i : Nat) : Blk := ⟨List.replicate i 0, 1 :: List.replicate i 0, h, 0, [], []⟩

/-- They are handed over one after the other. -/
def jamming (h : UInt64) : Nat → List Label
  | 0 => []
  | n + 1 => jamming h n ++ [.applyBlock (junk h n), .newBlock 0]

private theorem junk_inj {h : UInt64} {i j : Nat} (he : (junk h i).id = (junk h j).id) : i = j := by
  have := congrArg List.length he
  simpa [junk] using this

private theorem handed_junk {h : UInt64} {n : Nat} {b : Blk} (hb : Label.applyBlock b ∈ jamming h n) : ∃ i, i < n ∧ b = junk h i := by
  induction n with
  | zero => simp [jamming] at hb
  | succ n ih =>
    simp only [jamming, List.mem_append, List.mem_cons, Label.applyBlock.injEq, reduceCtorEq, List.not_mem_nil, or_false] at hb
    rcases hb with hb | rfl
    · obtain ⟨i, hi, rfl⟩ := ih hb; exact ⟨i, by omega, rfl⟩
    · exact ⟨n, by omega, rfl⟩

private theorem jamming_silent {h : UInt64} {n : Nat} {l : Label} (hl : l ∈ jamming h n) :
    ¬ ((∃ id x, l = .broadcast id x) ∨ ∃ heads lib, l = .forkHeads heads lib) := by
  induction n with
  | zero => simp [jamming] at hl
  | succ n ih =>
    simp only [jamming, List.mem_append, List.mem_cons, List.not_mem_nil, or_false] at hl
    rcases hl with hl | rfl | rfl
    · exact ih hl
    · simp
    · simp

private structure Filled (hi lib h : UInt64) (n : Nat) (s : AState) : Prop where
  highest : s.highest = hi
  lib : s.lib = lib
  newQ : s.newQ = []
  tries : s.tries = []
  retries : s.retries = []
  apps : s.apps = []
  hung : s.hung = false
  len : s.byId.len = n
  junk : ∀ id e, s.byId.get id = some e → ∃ i, i < n ∧ e.block = junk h i

/-- The watchdog has nothing to say about a block in whose slot no other has been handed over. -/
private theorem handed_in {o : AppOpts} {hi lib : UInt64} {T0 : Int} {ls : List Label} {s s' : AState} {b : Blk}
    (hs : App.run o (App.init hi lib T0) ls = some s) (hst : step o s (.applyBlock b) = some s')
    (hb : ∀ f, Label.applyBlock f ∈ ls → Claims f b → f.id = b.id) :
    s' = { s with
        watchdog := (s.watchdog.addBlk b).1, nextReq := s.nextReq + 1
        newQ := s.newQ ++ [(s.nextReq, b)], waiting := s.nextReq :: s.waiting
        log := .call s.nextReq b :: s.log } := by
  have hno : ¬ TooManyForks (forkEvents ls ++ [.add b]) b := by
    rintro ⟨ids, hnd, hl, ha⟩
    have hall : ∀ id ∈ ids, id = b.id := by
      intro id hid
      have h' : AddedSince (forkEvents (ls ++ [.applyBlock b])) b id := by
        rw [forkEvents_append]; exact ha id hid
      obtain ⟨f, rfl, hc, hm⟩ := handed_of_added h'
      rcases List.mem_append.1 hm with hm | hm
      · exact hb f hm hc
      · simp at hm; rw [hm]
    match ids, hl with
    | [x, y, _, _], _ =>
      have hx := hall x (by simp)
      have hy := hall y (by simp)
      simp [hx, hy] at hnd
  rcases step_applyBlock hst with ⟨e, _, he⟩ | hok
  · rcases C73_refused_exactly hs hst with ⟨ht, _⟩ | ⟨_, hq, _⟩
    · exact absurd ht hno
    · rw [he] at hq; simp at hq
  · exact hok.2

private theorem fill {o : AppOpts} {hi lib h : UInt64} {T0 : Int} (h1 : h > hi + 1) (h2 : ¬ h > hi + o.maxHeightDelta) (h3 : ¬ h ≤ lib)
    (ho : o.maxPendingBlocks.toNat < 2 ^ 63) (n : Nat) (hn : n ≤ o.maxPendingBlocks.toNat) :
    ∃ s, App.run o (App.init hi lib T0) (jamming h n) = some s ∧ Filled hi lib h n s := by
  induction n with
  | zero => exact ⟨_, rfl, rfl, rfl, rfl, rfl, rfl, rfl, rfl, rfl, fun id e he => by simp [App.init] at he⟩
  | succ n ih =>
    obtain ⟨s, hs, hf⟩ := ih (by omega)
    have hinv := inv_reachable ⟨hi, lib, T0, _, hs⟩
    obtain ⟨s1, hs1⟩ : ∃ s1, step o s (.applyBlock (junk h n)) = some s1 := ⟨_, rfl⟩
    obtain rfl := handed_in hs hs1 fun f hf hc => by
      obtain ⟨i, _, rfl⟩ := handed_junk hf
      have := hc.2.2
      simp only [junk, List.cons.injEq, true_and] at this
      exact this
    refine ⟨handleNewBlock o { s with
        watchdog := (s.watchdog.addBlk (junk h n)).1, nextReq := s.nextReq + 1
        newQ := [], waiting := s.nextReq :: s.waiting
        log := .call s.nextReq (junk h n) :: s.log } s.nextReq (junk h n), ?_, ?_⟩
    · rw [jamming, App.run_append, hs]
      rw [Option.bind_some]
      unfold App.run
      rw [hs1]
      simp [App.run, step, hf.hung, hf.newQ]
    · have hadm : admission o { s with
          watchdog := (s.watchdog.addBlk (junk h n)).1, nextReq := s.nextReq + 1
          newQ := [], waiting := s.nextReq :: s.waiting
          log := .call s.nextReq (junk h n) :: s.log } (junk h n) = none := by
        have hl : ¬ ((s.byId.len : Int) ≥ o.maxPendingBlocks.toBitVec.toInt) := by
          rw [toInt_pending ho, hf.len]; omega
        simp only [admission, hf.highest, hf.lib, hl, if_false]
        rw [if_neg (show ¬ (junk h n).height > hi + o.maxHeightDelta from h2), if_neg (show ¬ (junk h n).height ≤ lib from h3)]
      have hfresh : s.byId.get (junk h n).id = none := by
        cases hg : s.byId.get (junk h n).id with
        | none => rfl
        | some e =>
          exfalso
          obtain ⟨i, hin, hb⟩ := hf.junk _ e hg
          have := hinv.idx.key _ e hg
          rw [hb] at this
          exact absurd (junk_inj this) (by omega)
      unfold handleNewBlock
      rw [hadm]
      unfold addBlockEntry addTables
      simp only [hfresh]
      rw [if_pos (show (junk h n).height > s.highest + 1 by rw [hf.highest]; exact h1)]
      refine ⟨hf.highest, hf.lib, rfl, hf.tries, hf.retries, hf.apps, hf.hung, ?_, fun id e he => ?_⟩
      · rw [GoMap.len_set, GoMap.has_eq, hfresh]; simp [hf.len]
      · rw [GoMap.get_set] at he
        split at he
        · cases he; exact ⟨n, by omega, rfl⟩
        · obtain ⟨i, hi, hb⟩ := hf.junk id e he; exact ⟨i, by omega, hb⟩

/-- C119, how it fails, whatever the options: somebody who hands over as many made-up blocks as may wait, of a height a little above
the head, jams the node. Nothing needs to be submitted for it, nobody is accused of forking, and none of the calls is refused. -/
theorem C119_jam_partial {o : AppOpts} (hi lib h : UInt64) (T0 : Int) (h1 : h > hi + 1) (h2 : ¬ h > hi + o.maxHeightDelta)
    (h3 : ¬ h ≤ lib) (ho : o.maxPendingBlocks.toNat < 2 ^ 63) :
    ∃ s, App.run o (App.init hi lib T0) (jamming h o.maxPendingBlocks.toNat) = some s ∧ Jammed o s ∧
      ∀ w ∈ waitingBlocks s, w.height = h ∧ ∃ i, w = junk h i := by
  obtain ⟨s, hs, hf⟩ := fill (T0 := T0) h1 h2 h3 ho _ (Nat.le_refl _)
  refine ⟨s, hs, ⟨?_, hf.tries, hf.retries, hf.apps⟩, fun w hw => ?_⟩
  · rw [waitingBlocks, List.length_map]; exact hf.len.ge
  · obtain ⟨e, he, rfl⟩ := (mem_waitingBlocks (inv_reachable ⟨_, _, _, _, hs⟩).idx w).1 hw
    obtain ⟨i, _, hb⟩ := hf.junk _ e he
    rw [hb]; exact ⟨rfl, i, rfl⟩

/-- C119, refuted, for all options that let a block wait and allow heights two above the head. -/
theorem C119_junk_refuted (o : AppOpts) (ho : o.maxPendingBlocks.toNat < 2 ^ 63) (h1 : 1 ≤ o.maxPendingBlocks.toNat)
    (h2 : 2 ≤ o.maxHeightDelta.toNat) : ¬ OnlyConnectedCount o := by
  intro hcl
  have hd : ¬ (2 : UInt64) > 0 + o.maxHeightDelta := by
    rw [UInt64.zero_add, gt_iff_lt, UInt64.lt_iff_toNat_lt]; simp only [UInt64.toNat_ofNat]; omega
  obtain ⟨s, hs, hf⟩ := fill (o := o) (T0 := 0) (show (2 : UInt64) > 0 + 1 by decide) hd (by decide : ¬ (2 : UInt64) ≤ 0) ho _ (Nat.le_refl _)
  have hidx := (inv_reachable ⟨_, _, _, _, hs⟩).idx
  have hw : ∀ w ∈ waitingBlocks s, ∃ i, w = junk 2 i := fun w hw => by
    obtain ⟨e, he, rfl⟩ := (mem_waitingBlocks hidx w).1 hw
    obtain ⟨i, _, hb⟩ := hf.junk _ e he
    exact ⟨i, hb⟩
  -- the chain reports its head, and a child of the head is handed over
  let b : Blk := ⟨[7], [6], 1, 0, [], []⟩
  obtain ⟨s1, hs1⟩ : ∃ s1, step o s (.forkHeads [[6]] 0) = some s1 := ⟨handleForkHeads o s [[6]] 0, by simp [step, hf.hung]⟩
  have hk : kids o s [6] = [] := kids_none hidx fun w hm he => by
    obtain ⟨i, rfl⟩ := hw w hm
    simp [junk] at he
  have e1 : s1 = { s with watchdog := s.watchdog.purge 0 } := by
    obtain ⟨_, rfl⟩ := step_forkHeads hs1
    rw [handleForkHeads_eq, hf.lib]
    have : heights 0 0 = [] := by decide
    simp [this, hk, hf.hung]
  have hr1 : App.run o (App.init 0 0 0) (jamming 2 o.maxPendingBlocks.toNat ++ [.forkHeads [[6]] 0]) = some s1 := by
    rw [App.run_append, hs, Option.bind_some, App.run, hs1]; rfl
  obtain ⟨s2, hs2⟩ : ∃ s2, step o s1 (.applyBlock b) = some s2 := ⟨_, rfl⟩
  have e2 := handed_in hr1 hs2 fun f hf hc => by
    simp only [List.mem_append, List.mem_singleton, reduceCtorEq, or_false] at hf
    obtain ⟨i, _, rfl⟩ := handed_junk hf
    simp [Claims, junk, b] at hc
  have hr2 : App.run o (App.init 0 0 0) (jamming 2 o.maxPendingBlocks.toNat ++ [.forkHeads [[6]] 0] ++ [.applyBlock b]) = some s2 := by
    rw [App.run_append, hr1, Option.bind_some, App.run, hs2]; rfl
  have hfull : (s.byId.len : Int) ≥ o.maxPendingBlocks.toBitVec.toInt := by rw [toInt_pending ho, hf.len]
  have hb : ¬ b.height > s.highest + o.maxHeightDelta := by
    rw [hf.highest]
    simp only [b, UInt64.zero_add, gt_iff_lt, UInt64.lt_iff_toNat_lt, UInt64.toNat_ofNat]
    omega
  obtain ⟨ws, _, h4, h5⟩ := hcl 0 0 0 _ s2 _ 0 s.nextReq hr2
    (by rw [e2, e1]; simp only [step, hf.hung, hf.newQ, List.nil_append, List.getElem?_cons_zero]; rfl)
    (by
      rw [e2, e1]
      simp only [handleNewBlock, admission, hb, if_false, hfull, if_true]
      rfl)
  have hwe : waitingBlocks s2 = waitingBlocks s := by rw [e2, e1]; rfl
  have hno : ∀ w ∈ waitingBlocks s, ¬ Connected (jamming 2 o.maxPendingBlocks.toNat ++ [.forkHeads [[6]] 0] ++ [.applyBlock b])
      (waitingBlocks s) w := by
    intro w hm hc
    obtain ⟨i, rfl⟩ := hw w hm
    cases hc with
    | known h =>
      rcases h with ⟨x, hx⟩ | ⟨heads, l, hx, hid⟩
      · simp only [List.mem_append, List.mem_singleton, reduceCtorEq, or_false] at hx
        exact jamming_silent hx (Or.inl ⟨_, _, rfl⟩)
      · simp only [List.mem_append, List.mem_singleton, reduceCtorEq, or_false, Label.forkHeads.injEq] at hx
        rcases hx with hx | ⟨rfl, rfl⟩
        · exact jamming_silent hx (Or.inr ⟨_, _, rfl⟩)
        · simp [junk] at hid
    | parent hp _ he =>
      obtain ⟨j, rfl⟩ := hw _ hp
      simp only [junk] at he
      cases j <;> simp [List.replicate_succ] at he
  match ws, h5 with
  | [], h5 => simp at h5; omega
  | w :: _, _ =>
    obtain ⟨g1, g2⟩ := h4 w (by simp)
    rw [hwe] at g1 g2
    exact hno w g1 g2

/-- C119, what holds: as long as fewer blocks are waiting than may wait, a block of an acceptable height is taken in, whatever the
others are. -/
theorem C119_room_partial {o : AppOpts} (ho : o.maxPendingBlocks.toNat < 2 ^ 63) {s s' : AState} {i r : Nat} {b : Blk}
    (hq : s.newQ[i]? = some (r, b)) (hst : step o s (.newBlock i) = some s')
    (h1 : (waitingBlocks s).length < o.maxPendingBlocks.toNat) (h2 : ¬ b.height > s.highest + o.maxHeightDelta) (h3 : s.lib < b.height) :
    answered s'.log = answered s.log ∧ ∃ e, s'.byId.get b.id = some e ∧ r ∈ e.chans := by
  have hadm : admission o s b = none := by
    have hl : ¬ ((s.byId.len : Int) ≥ o.maxPendingBlocks.toBitVec.toInt) := by
      rw [toInt_pending ho]
      rw [waitingBlocks, List.length_map] at h1
      have : s.byId.len < o.maxPendingBlocks.toNat := h1
      omega
    simp only [admission, h2, hl, if_false]
    rw [if_neg (by rw [UInt64.not_le]; exact h3)]
  have := C13_effect hq hst
  rw [hadm] at this
  exact ⟨this.1, _, this.2.1, by simp⟩

/-- C119, what holds: when the chain reports all heights of the waiting blocks as irreversible, the table is empty again. -/
theorem C119_relief_partial {o : AppOpts} {s s' : AState} (hreach : Reachable o s) {heads : List Bytes} {lib : UInt64}
    (hst : step o s (.forkHeads heads lib) = some s') (h : ∀ w ∈ waitingBlocks s, s.lib < w.height ∧ w.height ≤ lib) :
    waitingBlocks s' = [] := by
  have hidx := (inv_reachable hreach).idx
  obtain ⟨_, rfl⟩ := step_forkHeads hst
  rw [handleForkHeads_eq]
  obtain ⟨g1, _, g3⟩ := evict_spec (heights s.lib lib)
    { s with lib := lib, watchdog := s.watchdog.purge lib, tries := s.tries ++ heads.flatMap (kids o s) } (hidx.of_eq rfl rfl rfl)
  refine List.eq_nil_iff_forall_not_mem.2 fun w hw => ?_
  obtain ⟨e, he, rfl⟩ := (mem_waitingBlocks (g1.of_eq rfl rfl rfl) w).1 hw
  have he' := (g3 e.block.id).symm.trans he
  obtain ⟨x, hx, hx'⟩ := Option.bind_eq_some_iff.1 he'
  split at hx'
  · cases hx'
  · rename_i hn
    cases hx'
    refine hn ((mem_heights _ _ _).2 ?_)
    obtain ⟨k1, k2⟩ := h e.block ((mem_waitingBlocks hidx _).2 ⟨e, hx, rfl⟩)
    rw [UInt64.lt_iff_toNat_lt] at k1
    rw [UInt64.le_iff_toNat_le] at k2
    have := e.block.height.toNat_lt
    have h1 : (s.lib + 1).toNat = s.lib.toNat + 1 := by
      rw [UInt64.toNat_add]; simp only [UInt64.toNat_one]; omega
    omega

/-! The default options: 2500 made-up blocks do. -/
example : ∃ s, App.run {} (App.init 100 40 0) (jamming 102 2500) = some s ∧ Jammed {} s ∧
    ∀ w ∈ waitingBlocks s, w.height = 102 ∧ ∃ i, w = junk 102 i :=
  C119_jam_partial (o := {}) 100 40 102 0 (by decide) (by decide) (by decide) (by decide)

/-- Two blocks may wait. -/
private def juO : AppOpts := { maxPendingBlocks := 2 }

/-- Two made-up blocks wait; then the chain takes blocks and makes some irreversible, and the next good block is handed over. -/
private def juPost : List Label :=
  [.broadcast [7] 101, .forkHeads [[7]] 60, .applyBlock ⟨[8], [7], 102, 0, [], []⟩, .newBlock 0, .tick 5, .callerReturns 2]

example : (App.run juO (App.init 100 40 0) (jamming 102 2)).map (fun s => (s.tries.length, s.retries.length, s.apps.length,
    (waitingBlocks s).length)) = some (0, 0, 0, 2) := by decide +kernel

/-! The good block is sent away, and the caller is told so. -/
example : (App.run juO (App.init 100 40 0) (jamming 102 2 ++ juPost)).map (fun s => s.log.take 3) =
    some [.returned 2 (some (.sentinel .maxPendingBlocks)), .answer 2 (some (.sentinel .maxPendingBlocks)),
      .call 2 ⟨[8], [7], 102, 0, [], []⟩] := by decide +kernel

/-! After the heights of the made-up blocks have become irreversible there is room again. -/
example : (App.run juO (App.init 100 40 0) (jamming 102 2 ++ juPost ++
    [.broadcast [9] 103, .forkHeads [[9]] 102, .applyBlock ⟨[10], [9], 104, 0, [], []⟩, .newBlock 0])).map (fun s => waitingBlocks s) =
    some [⟨[10], [9], 104, 0, [], []⟩] := by decide +kernel

end KP2P

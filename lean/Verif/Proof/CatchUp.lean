import Verif.Spec.CatchUp
import Verif.Spec.PeerConn
import Verif.Proof.AllAccepted
import Verif.Props.ChainLink
/-!
# Lemmas for C132
-/

namespace KP2P

namespace App

/-- A verdict is logged only when the chain answers. -/
theorem verdict_origin {o : AppOpts} {s s' : AState} {l : Label} (hinv : Inv o s) (hst : step o s l = some s') {b : Blk} {e : Option Err}
    (hv : Obs.verdict b e ∈ s'.log) (hl : ∀ i, l ≠ .rpcReturn i e) : Obs.verdict b e ∈ s.log := by
  cases l with
  | applyBlock b =>
    rcases step_applyBlock hst with ⟨e, _, rfl⟩ | ⟨_, rfl⟩ <;> simpa using hv
  | callerReturns r => obtain ⟨_, e, _, rfl⟩ := step_callerReturns hst; simpa using hv
  | callerTimesOut r => obtain ⟨_, rfl⟩ := step_callerTimesOut hst; simpa using hv
  | newBlock i =>
    obtain ⟨_, r, b, hq, rfl⟩ := step_newBlock hst
    unfold handleNewBlock at hv
    cases ha : admission o { s with newQ := s.newQ.eraseIdx i } b with
    | some e => rw [ha] at hv; simpa [answerAll] using hv
    | none =>
      rw [ha] at hv
      simp only at hv
      rcases addBlockEntry_cases { s with newQ := s.newQ.eraseIdx i } r b with ⟨_, he⟩ | ⟨_, _, he⟩
      · rw [he] at hv; simpa using hv
      · rw [he] at hv
        obtain ⟨m, p, hh', hf⟩ := addTables_frame { s with newQ := s.newQ.eraseIdx i } r b
        rw [hf] at hv; exact hv
  | forkHeads heads lib =>
    obtain ⟨_, rfl⟩ := step_forkHeads hst
    rw [handleForkHeads_eq] at hv
    obtain ⟨_, h2, _⟩ := evict_spec (heights s.lib lib)
      { s with lib := lib, watchdog := s.watchdog.purge lib, tries := s.tries ++ heads.flatMap (kids o s) }
      (hinv.idx.of_eq rfl rfl rfl)
    obtain ⟨rs, hl, _⟩ := h2.log
    rw [hl] at hv
    simpa using hv
  | broadcast id height =>
    obtain ⟨_, rfl⟩ := step_broadcast hst
    rw [handleBroadcast_eq] at hv; exact hv
  | tryBlock i =>
    obtain ⟨_, b, f, ht, rfl⟩ := step_tryBlock hst
    unfold handleTry at hv
    split at hv
    · split at hv <;> exact hv
    · simpa using hv
  | status i =>
    obtain ⟨_, b, e, ha, rfl⟩ := step_status hst
    rcases handleStatus_cases o { s with apps := s.apps.eraseIdx i } b e with ⟨_, hs⟩ | ⟨_, _, hs⟩ | ⟨_, _, hs⟩
    · rw [hs] at hv; simpa [trySend, afterStatus] using hv
    · rw [hs] at hv; simpa [afterStatus] using hv
    · rw [hs, log_remove] at hv
      simpa [afterStatus] using hv
  | delayDone i => obtain ⟨b, t, t', ha, _, rfl⟩ := step_delayDone hst; exact hv
  | delayTimeout i => obtain ⟨b, t, t', ha, _, rfl⟩ := step_delayTimeout hst; simpa using hv
  | work i =>
    obtain ⟨b, ha, ⟨_, rfl⟩ | ⟨hl, rfl⟩⟩ := step_work hst
    · exact hv
    · simpa using hv
  | rpcReturn i e' =>
    obtain ⟨b, ha, rfl⟩ := step_rpcReturn hst
    rcases List.mem_cons.1 hv with hv | hv
    · cases hv; exact absurd rfl (hl i)
    · exact hv
  | retryDue i => obtain ⟨t, b, _, _, rfl⟩ := step_retryDue hst; exact hv
  | tick d => rw [step_tick hst] at hv; exact hv

end App

namespace Link

/-- Success is answered only for accepted blocks. -/
theorem verdict_has {o : AppOpts} {P : State → Label → Prop} {s : State} (h : Reach o P s) (b : Blk)
    (hv : Obs.verdict b none ∈ s.app.log) : Has s b.id := by
  induction h with
  | init hi lib now known hk => simp [init, App.init] at hv
  | @step s s' l hr hp hst ih =>
    cases l with
    | accept id prev n =>
      exact accepted_mono hst (ih (by obtain ⟨_, _, rfl⟩ := step_accept hst; exact hv))
    | deliver i =>
      refine accepted_mono hst (ih ?_)
      obtain ⟨id, n, a, hn, ha, rfl⟩ := step_deliver hst
      exact App.verdict_origin (reach_inv hr).inv ha hv (by rintro _ ⟨⟩)
    | act l =>
      obtain ⟨a, ha, rfl, _, hhon⟩ := step_act hst
      by_cases hl : ∃ i, l = .rpcReturn i none
      · obtain ⟨i, rfl⟩ := hl
        simp only [App.step] at ha
        split at ha
        · rename_i b' hb'
          cases ha
          rcases List.mem_cons.1 hv with hv | hv
          · cases hv
            have := hhon i none _ rfl hb'
            simp only [honest, ne_eq, not_true_eq_false, decide_false, Bool.false_or, Bool.and_eq_true, decide_eq_true_eq] at this
            exact this.1
          · exact ih hv
        · cases ha
      · exact ih (App.verdict_origin (reach_inv hr).inv ha hv (fun i h => hl ⟨i, h⟩))

end Link

namespace PeerConn
open KP2P.Spec.PeerConn

/-- Only the results of the blocks handed over matter. -/
theorem applyLoop_congr (a a' : Nat → RawBlock → Option Err) (bs : List RawBlock) (i : Nat)
    (h : ∀ j b, (applied (applyLoop a i bs).1)[j]? = some b → a (i + j) b = a' (i + j) b) : applyLoop a i bs = applyLoop a' i bs := by
  induction bs generalizing i with
  | nil => rfl
  | cons b bs ih =>
    have h0 : b.header.isSome → a i b = a' i b := by
      intro hb
      obtain ⟨hd, hb⟩ := Option.isSome_iff_exists.1 hb
      refine h 0 b ?_
      simp only [applyLoop, hb]
      cases a i b with
      | none => rfl
      | some e => simp only; split_ifs <;> rfl
    cases hb : b.header with
    | none => simp [applyLoop, hb]
    | some hd =>
      have h1 := h0 (by rw [hb]; rfl)
      have key : (applied (applyLoop a i (b :: bs)).1 = b :: applied (applyLoop a (i + 1) bs).1) →
          applyLoop a (i + 1) bs = applyLoop a' (i + 1) bs := by
        intro hap
        refine ih (i + 1) fun j c hj => ?_
        have := h (j + 1) c (by rw [hap]; simpa using hj)
        rwa [show i + (j + 1) = i + 1 + j by omega] at this
      simp only [applyLoop, hb, ← h1]
      simp only [applyLoop, hb] at key
      cases ha : a i b with
      | none =>
        simp only [ha] at key ⊢
        rw [key rfl]
      | some e =>
        simp only [ha] at key ⊢
        split_ifs at key ⊢
        · rfl
        · rfl
        · rw [key rfl]
        · rfl

/-- When the loop ends well, every result lets it go on. -/
theorem applyLoop_passes (a : Nat → RawBlock → Option Err) (bs : List RawBlock) (i : Nat) (hok : (applyLoop a i bs).2 = .ok)
    (j : Nat) (b : RawBlock) (h : (applied (applyLoop a i bs).1)[j]? = some b) : Passes (a (i + j) b) := by
  induction bs generalizing i j with
  | nil => simp [applyLoop, applied] at h
  | cons c bs ih =>
    cases hb : c.header with
    | none => simp [applyLoop, hb] at hok
    | some hd =>
      simp only [applyLoop, hb] at hok h
      have next : ∀ r : List Call × Outcome, r = applyLoop a (i + 1) bs → r.2 = .ok → (Passes (a i c)) →
          (applied (.applyBlock c :: r.1))[j]? = some b → Passes (a (i + j) b) := by
        rintro r rfl hr h0 hj
        cases j with
        | zero =>
          have : c = b := by simpa [applied] using hj
          exact this ▸ h0
        | succ j =>
          have := ih (i + 1) hr j (by simpa [applied] using hj)
          rwa [show i + 1 + j = i + (j + 1) by omega] at this
      cases ha : a i c with
      | none =>
        simp only [ha] at hok h
        exact next _ rfl hok (by rw [ha]; exact Or.inl rfl) h
      | some e =>
        simp only [ha] at hok h
        split_ifs at hok h with h1 h2 h3
        · exact next _ rfl hok (by rw [ha]; exact Or.inr ⟨e, rfl, h3⟩) h

theorem fetch_congr (o : Opts) (e : SyncEnv) (a' : Nat → RawBlock → Option Err) (synced : Bool) (id : Bytes) (head : UInt64)
    (h : ∀ j b, (applied (fetch o e synced id head).calls)[j]? = some b → e.apply j b = a' j b) :
    fetch o { e with apply := a' } synced id head = fetch o e synced id head := by
  unfold fetch at h ⊢
  simp only
  cases hb : e.blocks id (e.lib.height + 1) (toRequest o e.lib.height head).toUInt32 with
  | error err => rfl
  | ok bs =>
    simp only [hb] at h
    have hc : applyLoop e.apply 0 bs = applyLoop a' 0 bs := by
      refine applyLoop_congr _ _ _ _ fun j b hj => ?_
      rw [Nat.zero_add]
      refine h j b ?_
      cases hr : (applyLoop e.apply 0 bs).2 with
      | ok =>
        simp only
        cases bs.getLast? with
        | none => exact hj
        | some x => simp only; cases x.header <;> exact hj
      | err x => exact hj
      | panic => exact hj
    simp only [← hc]

theorem sync_congr (o : Opts) (e : SyncEnv) (a' : Nat → RawBlock → Option Err) (synced : Bool)
    (h : ∀ j b, (applied (requestSyncBlocks o e synced).calls)[j]? = some b → e.apply j b = a' j b) :
    requestSyncBlocks o { e with apply := a' } synced = requestSyncBlocks o e synced := by
  unfold requestSyncBlocks at h ⊢
  simp only
  cases hh : e.peerHead with
  | error err => rfl
  | ok p =>
    obtain ⟨id, head⟩ := p
    simp only [hh] at h ⊢
    by_cases hle : head ≤ e.lib.height
    · simp only [hle, if_true]
    · simp only [hle, if_false] at h ⊢
      cases hk : e.blocksByID id with
      | error err => rfl
      | ok items =>
        simp only [hk] at h ⊢
        match items, h with
        | [], _ => rfl
        | _ :: _ :: _, _ => rfl
        | [n], h =>
          simp only at h ⊢
          by_cases hn : n ≠ 0
          · simp only [hn, if_true, ne_eq, not_false_eq_true]
          · simp only [hn, if_false] at h ⊢
            by_cases hl : e.lib.height > 0
            · simp only [hl, if_true] at h ⊢
              cases ha : e.ancestor id e.lib.height with
              | error err => rfl
              | ok a =>
                simp only [ha] at h ⊢
                by_cases hae : a = e.lib.id
                · simp only [hae, if_true] at h ⊢
                  have hf := fetch_congr o e a' synced id head fun j b hj => h j b (by simpa [applied] using hj)
                  simp only [hh] at hf
                  rw [hf]
                · simp only [hae, if_false]
            · simp only [hl, if_false] at h ⊢
              have hf := fetch_congr o e a' synced id head fun j b hj => h j b (by simpa [applied] using hj)
              simp only [hh] at hf
              rw [hf]

theorem fetch_passes (o : Opts) (e : SyncEnv) (synced : Bool) (id : Bytes) (head : UInt64) (hok : (fetch o e synced id head).out = .ok)
    (j : Nat) (b : RawBlock) (h : (applied (fetch o e synced id head).calls)[j]? = some b) : Passes (e.apply j b) := by
  unfold fetch at hok h
  simp only at hok h
  cases hb : e.blocks id (e.lib.height + 1) (toRequest o e.lib.height head).toUInt32 with
  | error err => simp [hb] at hok
  | ok bs =>
    simp only [hb] at hok h
    cases hr : (applyLoop e.apply 0 bs).2 with
    | err x => simp [hr] at hok
    | panic => simp [hr] at hok
    | ok =>
      have := applyLoop_passes e.apply bs 0 hr j b
      rw [Nat.zero_add] at this
      refine this ?_
      simp only [hr] at h
      cases hg : bs.getLast? with
      | none => simpa [hg, applied] using h
      | some x =>
        simp only [hg] at h
        cases hx : x.header with
        | none => simpa [hx, applied] using h
        | some _ => simpa [hx, applied] using h

/-- When a round ends well, every block handed over was applied or is irreversible. -/
theorem sync_passes (o : Opts) (e : SyncEnv) (synced : Bool) (hok : (requestSyncBlocks o e synced).out = .ok)
    (j : Nat) (b : RawBlock) (h : (applied (requestSyncBlocks o e synced).calls)[j]? = some b) : Passes (e.apply j b) := by
  unfold requestSyncBlocks at hok h
  cases hh : e.peerHead with
  | error err => simp [hh] at hok
  | ok p =>
    obtain ⟨id, head⟩ := p
    simp only [hh] at hok h
    by_cases hle : head ≤ e.lib.height
    · simp [hle, applied] at h
    · simp only [hle, if_false] at hok h
      cases hk : e.blocksByID id with
      | error err => simp [hk] at hok
      | ok items =>
        simp only [hk] at hok h
        match items, hok, h with
        | [], hok, _ => simp at hok
        | _ :: _ :: _, hok, _ => simp at hok
        | [n], hok, h =>
          simp only at hok h
          by_cases hn : n ≠ 0
          · simp [hn, applied] at h
          · simp only [hn, if_false] at hok h
            by_cases hl : e.lib.height > 0
            · simp only [hl, if_true] at hok h
              cases ha : e.ancestor id e.lib.height with
              | error err => simp [ha] at hok
              | ok a =>
                simp only [ha] at hok h
                by_cases hae : a = e.lib.id
                · simp only [hae, if_true] at hok h
                  exact fetch_passes o e synced id head hok j b (by simpa [applied] using h)
                · simp [hae] at hok
            · simp only [hl, if_false] at hok h
              exact fetch_passes o e synced id head hok j b (by simpa [applied] using h)

/-- The blocks handed over are the first of those that would be handed over if all went well. -/
theorem applyLoop_prefix (a : Nat → RawBlock → Option Err) (bs : List RawBlock) (i : Nat) :
    applied (applyLoop a i bs).1 <+: applied (applyLoop (fun _ _ => none) i bs).1 := by
  induction bs generalizing i with
  | nil => exact List.prefix_rfl
  | cons b bs ih =>
    cases hb : b.header with
    | none => simp only [applyLoop, hb]; exact List.prefix_rfl
    | some hd =>
      have next : applied (Call.applyBlock b :: (applyLoop a (i + 1) bs).1) <+:
          applied (Call.applyBlock b :: (applyLoop (fun _ _ => none) (i + 1) bs).1) := by
        simpa [applied] using ih (i + 1)
      have stop : applied [Call.applyBlock b] <+: applied (Call.applyBlock b :: (applyLoop (fun _ _ => none) (i + 1) bs).1) := by
        simp [applied]
      simp only [applyLoop, hb]
      cases a i b with
      | none => exact next
      | some e =>
        simp only
        split_ifs
        · exact stop
        · exact stop
        · exact next
        · exact stop

theorem fetch_prefix (o : Opts) (e : SyncEnv) (synced : Bool) (id : Bytes) (head : UInt64) :
    applied (fetch o e synced id head).calls <+: applied (fetch o { e with apply := fun _ _ => none } synced id head).calls := by
  have calls : ∀ e : SyncEnv, (fetch o e synced id head).calls = Call.peerBlocks id (e.lib.height + 1) (toRequest o e.lib.height head).toUInt32 ::
      match e.blocks id (e.lib.height + 1) (toRequest o e.lib.height head).toUInt32 with
      | .error _ => []
      | .ok bs => (applyLoop e.apply 0 bs).1 := by
    intro e
    unfold fetch
    simp only
    cases hb : e.blocks id (e.lib.height + 1) (toRequest o e.lib.height head).toUInt32 with
    | error err => rfl
    | ok bs =>
      simp only
      cases (applyLoop e.apply 0 bs).2 with
      | err x => rfl
      | panic => rfl
      | ok =>
        simp only
        cases bs.getLast? with
        | none => rfl
        | some x => simp only; cases x.header <;> rfl
  rw [calls, calls]
  simp only
  cases e.blocks id (e.lib.height + 1) (toRequest o e.lib.height head).toUInt32 with
  | error err => exact List.prefix_rfl
  | ok bs => simpa [applied] using applyLoop_prefix e.apply bs 0

theorem sync_prefix (o : Opts) (e : SyncEnv) (synced : Bool) :
    applied (requestSyncBlocks o e synced).calls <+: applied (requestSyncBlocks o { e with apply := fun _ _ => none } synced).calls := by
  unfold requestSyncBlocks
  simp only
  cases hh : e.peerHead with
  | error err => exact List.prefix_rfl
  | ok p =>
    obtain ⟨id, head⟩ := p
    have hf := fetch_prefix o e synced id head
    simp only [hh] at hf ⊢
    by_cases hle : head ≤ e.lib.height
    · simp only [hle, if_true]; exact List.prefix_rfl
    · simp only [hle, if_false]
      cases hk : e.blocksByID id with
      | error err => exact List.prefix_rfl
      | ok items =>
        simp only
        match items with
        | [] => exact List.prefix_rfl
        | _ :: _ :: _ => exact List.prefix_rfl
        | [n] =>
          simp only
          by_cases hn : n ≠ 0
          · simp only [hn, if_true, ne_eq, not_false_eq_true]; exact List.prefix_rfl
          · simp only [hn, if_false]
            by_cases hl : e.lib.height > 0
            · simp only [hl, if_true]
              cases ha : e.ancestor id e.lib.height with
              | error err => exact List.prefix_rfl
              | ok a =>
                simp only
                by_cases hae : a = e.lib.id
                · simp only [hae, if_true]
                  simpa [applied] using hf
                · simp only [hae, if_false]; exact List.prefix_rfl
            · simp only [hl, if_false]
              simpa [applied] using hf

/-- Blocks are handed over only if the peer is ahead and its head unknown to us. -/
theorem sync_handed (o : Opts) (e : SyncEnv) (synced : Bool) (id : Bytes) (head : UInt64) (hh : e.peerHead = .ok (id, head))
    (h : applied (requestSyncBlocks o e synced).calls ≠ []) : e.lib.height < head ∧ e.blocksByID id = .ok [0] := by
  unfold requestSyncBlocks at h
  simp only [hh] at h
  by_cases hle : head ≤ e.lib.height
  · simp [hle, applied] at h
  · simp only [hle, if_false] at h
    refine ⟨UInt64.not_le.1 hle, ?_⟩
    cases hk : e.blocksByID id with
    | error err => simp [hk, applied] at h
    | ok items =>
      simp only [hk] at h
      match items, h with
      | [], h => simp [applied] at h
      | _ :: _ :: _, h => simp [applied] at h
      | [n], h =>
        by_cases hn : n = 0
        · rw [hn]
        · simp [hn, applied] at h

end PeerConn
end KP2P

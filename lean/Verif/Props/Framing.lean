import Verif.Spec.Framing
import Verif.Props.ApplicatorMore
import Verif.Props.Honest
import Verif.Props.Defaults
/-!
# C121: nobody pays for the blocks that others make up
-/

namespace KP2P
open App Spec Spec.Framing Spec.PeerConn Spec.Peering PeerConn PeerRPC Peering ErrHandler

/-! ### The producer -/

namespace App

theorem forkEvents_append (a b : List Label) : forkEvents (a ++ b) = forkEvents a ++ forkEvents b := List.filterMap_append ..

theorem addedSince_of_handed {ls : List Label} {b f : Blk} (h : HandedSince ls b f) (hc : Claims f b) (xs : List WOp)
    (hx : ∀ lib, WOp.purge lib ∈ xs → lib < b.height) : AddedSince (forkEvents ls ++ xs) b f.id := by
  obtain ⟨pre, post, rfl, hp⟩ := h
  refine ⟨forkEvents pre, f, forkEvents post ++ xs, ?_, rfl, hc, fun lib hl => ?_⟩
  · rw [forkEvents_append]; simp [forkEvents, forkEvent]
  · rcases List.mem_append.1 hl with hl | hl
    · obtain ⟨l, hl1, hl2⟩ := List.mem_filterMap.1 hl
      cases l <;> simp [forkEvent] at hl2
      next heads lib' => subst hl2; exact hp heads _ hl1
    · exact hx lib hl

theorem handed_of_added {ls : List Label} {b : Blk} {id : Bytes} (h : AddedSince (forkEvents ls) b id) :
    ∃ f, f.id = id ∧ Claims f b ∧ Label.applyBlock f ∈ ls := by
  obtain ⟨pre, f, post, he, h1, h2, _⟩ := h
  have : WOp.add f ∈ forkEvents ls := by rw [he]; simp
  obtain ⟨l, hl1, hl2⟩ := List.mem_filterMap.1 this
  cases l <;> simp [forkEvent] at hl2
  next c => subst hl2; exact ⟨c, h1, h2, hl1⟩

/-- Only a call is logged as a call. -/
theorem step_calls {o : AppOpts} {s : AState} {l : Label} {s' : AState} (hinv : Inv o s) (hst : step o s l = some s') {r : Nat} {c : Blk}
    (h : Obs.call r c ∈ s'.log) : Obs.call r c ∈ s.log ∨ l = .applyBlock c ∧ r = s.nextReq := by
  have ext : ∀ new : List Obs, s'.log = new ++ s.log → (∀ r c, Obs.call r c ∉ new) → Obs.call r c ∈ s.log := by
    intro new hn hc
    rw [hn] at h
    exact (List.mem_append.1 h).resolve_left (hc r c)
  cases l with
  | applyBlock b =>
    rcases step_applyBlock hst with ⟨e, _, rfl⟩ | ⟨_, rfl⟩
    · simp only [List.mem_cons, reduceCtorEq, Obs.call.injEq, false_or] at h
      rcases h with ⟨rfl, rfl⟩ | h
      · exact Or.inr ⟨rfl, rfl⟩
      · exact Or.inl h
    · simp only [List.mem_cons, Obs.call.injEq] at h
      rcases h with ⟨rfl, rfl⟩ | h
      · exact Or.inr ⟨rfl, rfl⟩
      · exact Or.inl h
  | callerReturns r => obtain ⟨_, e, _, rfl⟩ := step_callerReturns hst; exact Or.inl (ext [_] rfl (by simp))
  | callerTimesOut r => obtain ⟨_, rfl⟩ := step_callerTimesOut hst; exact Or.inl (ext [_] rfl (by simp))
  | newBlock i =>
    obtain ⟨_, r, b, hq, rfl⟩ := step_newBlock hst
    unfold handleNewBlock at ext
    left
    cases ha : admission o { s with newQ := s.newQ.eraseIdx i } b with
    | some e => rw [ha] at ext; exact ext [_] rfl (by simp)
    | none =>
      rw [ha] at ext
      simp only at ext
      rcases addBlockEntry_cases { s with newQ := s.newQ.eraseIdx i } r b with ⟨_, he⟩ | ⟨_, _, he⟩
      · rw [he] at ext; exact ext [_] rfl (by simp)
      · rw [he] at ext
        obtain ⟨m, p, hh', hf⟩ := addTables_frame { s with newQ := s.newQ.eraseIdx i } r b
        refine ext [] ?_ (by simp)
        rw [hf]; rfl
  | forkHeads heads lib =>
    obtain ⟨_, rfl⟩ := step_forkHeads hst
    rw [handleForkHeads_eq] at ext
    obtain ⟨_, h2, _⟩ := evict_spec (heights s.lib lib)
      { s with lib := lib, watchdog := s.watchdog.purge lib, tries := s.tries ++ heads.flatMap (kids o s) }
      (hinv.idx.of_eq rfl rfl rfl)
    obtain ⟨rs, hl, _⟩ := h2.log
    exact Or.inl (ext _ hl (by simp))
  | broadcast id height =>
    obtain ⟨_, rfl⟩ := step_broadcast hst
    rw [handleBroadcast_eq] at ext; exact Or.inl (ext [] rfl (by simp))
  | tryBlock i =>
    obtain ⟨_, b, f, ht, rfl⟩ := step_tryBlock hst
    left
    unfold handleTry at ext
    split at ext
    · split at ext <;> exact ext [] rfl (by simp)
    · exact ext [_] rfl (by simp)
  | status i =>
    obtain ⟨_, b, e, ha, rfl⟩ := step_status hst
    left
    rcases handleStatus_cases o { s with apps := s.apps.eraseIdx i } b e with ⟨_, hs⟩ | ⟨_, _, hs⟩ | ⟨_, _, hs⟩
    · rw [hs] at ext; exact ext [_] rfl (by simp)
    · rw [hs] at ext; exact ext [_] rfl (by simp)
    · rw [hs, log_remove] at ext
      exact ext (_ ++ [Obs.status b e]) (List.append_assoc _ [Obs.status b e] s.log).symm (by simp)
  | delayDone i => obtain ⟨b, t, t', ha, _, rfl⟩ := step_delayDone hst; exact Or.inl (ext [] rfl (by simp))
  | delayTimeout i => obtain ⟨b, t, t', ha, _, rfl⟩ := step_delayTimeout hst; exact Or.inl (ext [_] rfl (by simp))
  | work i =>
    obtain ⟨b, ha, ⟨_, rfl⟩ | ⟨hl, rfl⟩⟩ := step_work hst
    · exact Or.inl (ext [] rfl (by simp))
    · exact Or.inl (ext [_] rfl (by simp))
  | rpcReturn i e => obtain ⟨b, ha, rfl⟩ := step_rpcReturn hst; exact Or.inl (ext [_] rfl (by simp))
  | retryDue i => obtain ⟨t, b, _, _, rfl⟩ := step_retryDue hst; exact Or.inl (ext [] rfl (by simp))
  | tick d => rw [step_tick hst] at ext; exact Or.inl (ext [] rfl (by simp))

theorem handed_snoc {ls : List Label} {b f : Blk} (h : HandedSince ls b f) (l : Label)
    (hl : ∀ heads lib, l = .forkHeads heads lib → lib < b.height) : HandedSince (ls ++ [l]) b f := by
  obtain ⟨pre, post, rfl, hp⟩ := h
  refine ⟨pre, post ++ [l], by simp, fun heads lib hm => ?_⟩
  rcases List.mem_append.1 hm with hm | hm
  · exact hp heads lib hm
  · exact hl heads lib (List.mem_singleton.1 hm).symm

end App

/-- C121, how it fails, for all executions: three blocks that name the slot of a block in their headers, handed over by anybody in any
order among anything else, make the node refuse that block as a fork bomb, at once and without looking at it, until its height is
irreversible. -/
theorem C121_framed_partial {o : AppOpts} {hi lib : UInt64} {T0 : Int} {ls : List Label} {s s' : AState} {b f₁ f₂ f₃ : Blk}
    (hr : App.run o (App.init hi lib T0) ls = some s) (h₁ : HandedSince ls b f₁) (h₂ : HandedSince ls b f₂) (h₃ : HandedSince ls b f₃)
    (c₁ : Claims f₁ b) (c₂ : Claims f₂ b) (c₃ : Claims f₃ b) (hd : [f₁.id, f₂.id, f₃.id, b.id].Nodup)
    (hst : App.step o s (.applyBlock b) = some s') : Refused s s' b (.sentinel .forkBomb) := by
  have ht : TooManyForks (forkEvents ls ++ [.add b]) b := by
    refine ⟨_, hd, rfl, fun id hid => ?_⟩
    simp only [List.mem_cons, List.not_mem_nil, or_false] at hid
    rcases hid with rfl | rfl | rfl | rfl
    · exact addedSince_of_handed h₁ c₁ _ (by simp)
    · exact addedSince_of_handed h₂ c₂ _ (by simp)
    · exact addedSince_of_handed h₃ c₃ _ (by simp)
    · exact ⟨forkEvents ls, b, [], rfl, rfl, ⟨rfl, rfl, rfl⟩, by simp⟩
  rcases C73_refused_exactly hr hst with ⟨_, h1, _, h2⟩ | ⟨h1, _⟩
  · exact ⟨h2, h1⟩
  · exact absurd ht h1

/-- C121, how it fails: a genuine block that comes after three made-up ones never gets to the chain, however often and by whomever it
is handed over, until its height is reported irreversible (which it can hardly become without this block). -/
theorem C121_shut_out_partial {o : AppOpts} {hi lib : UInt64} {T0 : Int} {ls post : List Label} {s t : AState} {b f₁ f₂ f₃ : Blk}
    (hr : App.run o (App.init hi lib T0) ls = some s) (h₁ : HandedSince ls b f₁) (h₂ : HandedSince ls b f₂) (h₃ : HandedSince ls b f₃)
    (c₁ : Claims f₁ b) (c₂ : Claims f₂ b) (c₃ : Claims f₃ b) (hd : [f₁.id, f₂.id, f₃.id, b.id].Nodup)
    (hnew : Label.applyBlock b ∉ ls) (hrun : App.run o s post = some t)
    (hp : ∀ heads l, Label.forkHeads heads l ∈ post → l < b.height) : Obs.submit b ∉ t.log := by
  have hnone : ∀ (ls : List Label) (s : AState), App.run o (App.init hi lib T0) ls = some s → Label.applyBlock b ∉ ls →
      ∀ r, Obs.call r b ∉ s.log := by
    intro ls
    induction ls using List.reverseRecOn with
    | nil => intro s hs _ r; cases hs; simp [App.init]
    | append_singleton ls l ih =>
      intro s hs hn r hc
      obtain ⟨u, hu1, hu2⟩ := run_snoc hs
      rcases step_calls (inv_reachable ⟨hi, lib, T0, ls, hu1⟩) hu2 hc with hc | ⟨rfl, _⟩
      · exact ih u hu1 (fun hm => hn (by simp [hm])) r hc
      · exact hn (by simp)
  have key : ∀ (post : List Label) (t : AState), App.run o s post = some t →
      (∀ heads l, Label.forkHeads heads l ∈ post → l < b.height) →
      (HandedSince (ls ++ post) b f₁ ∧ HandedSince (ls ++ post) b f₂ ∧ HandedSince (ls ++ post) b f₃) ∧
      ∀ r, Obs.call r b ∈ t.log → r ∈ refusedCalls t.log := by
    intro post
    induction post using List.reverseRecOn with
    | nil =>
      intro t ht _; cases ht
      simp only [List.append_nil]
      exact ⟨⟨h₁, h₂, h₃⟩, fun r hc => absurd hc (hnone ls s hr hnew r)⟩
    | append_singleton post l ih =>
      intro t ht hp
      obtain ⟨u, hu1, hu2⟩ := run_snoc ht
      obtain ⟨⟨g₁, g₂, g₃⟩, hu3⟩ := ih u hu1 fun heads l hm => hp heads l (by simp [hm])
      have hl : ∀ heads lib, l = .forkHeads heads lib → lib < b.height := fun heads lib hl => hp heads lib (by simp [hl])
      have hru : App.run o (App.init hi lib T0) (ls ++ post) = some u := by rw [App.run_append, hr]; exact hu1
      have hinv := inv_reachable ⟨hi, lib, T0, _, hru⟩
      rw [← List.append_assoc]
      refine ⟨⟨handed_snoc g₁ l hl, handed_snoc g₂ l hl, handed_snoc g₃ l hl⟩, fun r hc => ?_⟩
      rcases step_calls hinv hu2 hc with hc | ⟨rfl, rfl⟩
      · obtain ⟨x, hx1, hx2⟩ := List.mem_filterMap.1 (hu3 r hc)
        exact List.mem_filterMap.2 ⟨x, log_grows hinv hu2 x hx1, hx2⟩
      · have := C121_framed_partial hru g₁ g₂ g₃ c₁ c₂ c₃ hd hu2
        rw [this.1]
        simp [refusedCalls]
  intro hsub
  obtain ⟨r, h1, h2⟩ := C73_only_accepted ⟨hi, lib, T0, ls ++ post, by rw [App.run_append, hr]; exact hrun⟩ b hsub
  exact h2 ((key post t hrun hp).2 r h1)

/-- C121, refuted, whatever it is that makes a block genuine, as long as somebody can make up three other blocks for the slot of a
genuine one. -/
theorem C121_producer_refuted (o : AppOpts) (genuine : Blk → Prop) (b f₁ f₂ f₃ : Blk) (c₁ : Claims f₁ b) (c₂ : Claims f₂ b)
    (c₃ : Claims f₃ b) (hd : [f₁.id, f₂.id, f₃.id, b.id].Nodup) (hg : ∀ c, genuine c ∧ Claims c b ↔ c = b) :
    ¬ OwnBlocksOnly o genuine := by
  intro h
  let ls : List Label := [.applyBlock f₁, .applyBlock f₂, .applyBlock f₃]
  have hr : App.run o (App.init 0 0 0) ls = some (applyBlock (applyBlock (applyBlock (App.init 0 0 0) f₁) f₂) f₃) := rfl
  have hst : App.step o (applyBlock (applyBlock (applyBlock (App.init 0 0 0) f₁) f₂) f₃) (.applyBlock b) = some _ := rfl
  have hb := ((hg b).2 rfl).1
  obtain ⟨fs, h1, h2, h3⟩ := h 0 0 0 ls _ _ b hr hb hst
    (C121_framed_partial hr ⟨[], [.applyBlock f₂, .applyBlock f₃], rfl, by simp⟩ ⟨[.applyBlock f₁], [.applyBlock f₃], rfl, by simp⟩
      ⟨[.applyBlock f₁, .applyBlock f₂], [], rfl, by simp⟩ c₁ c₂ c₃ hd hst)
  match fs, h1, h2, h3 with
  | x :: y :: rest, h1, _, h3 =>
    have hx := (hg x).1 (h3 x (by simp))
    have hy := (hg y).1 (h3 y (by simp))
    rw [hx, hy] at h1
    simp at h1

/-- C121, what holds: if only genuine blocks of the slot were handed over, a block of the slot is refused only if its producer made
more than three. -/
theorem C121_own_blocks_partial {o : AppOpts} {genuine : Blk → Prop} {hi lib : UInt64} {T0 : Int} {ls : List Label} {s s' : AState}
    {b : Blk} (hr : App.run o (App.init hi lib T0) ls = some s) (hb : genuine b)
    (hall : ∀ f, Label.applyBlock f ∈ ls → Claims f b → genuine f) (hst : App.step o s (.applyBlock b) = some s') (e : Err)
    (href : Refused s s' b e) : ∃ fs : List Blk, (fs.map Blk.id).Nodup ∧ 3 < fs.length ∧ ∀ f ∈ fs, genuine f ∧ Claims f b := by
  rcases C73_refused_exactly hr hst with ⟨⟨ids, hn, hlen, hids⟩, _⟩ | ⟨_, h1, _⟩
  · have hf : ∀ id ∈ ids, ∃ f : Blk, f.id = id ∧ genuine f ∧ Claims f b := by
      intro id hid
      have hadd : AddedSince (forkEvents (ls ++ [.applyBlock b])) b id := by
        rw [forkEvents_append]; exact hids id hid
      obtain ⟨f, h1, h2, h3⟩ := handed_of_added hadd
      rcases List.mem_append.1 h3 with h3 | h3
      · exact ⟨f, h1, hall f h3 h2, h2⟩
      · simp at h3; subst h3; exact ⟨f, h1, hb, h2⟩
    have key : ∀ ids : List Bytes, (∀ id ∈ ids, ∃ f : Blk, f.id = id ∧ genuine f ∧ Claims f b) →
        ∃ fs : List Blk, fs.map Blk.id = ids ∧ ∀ f ∈ fs, genuine f ∧ Claims f b := by
      intro ids
      induction ids with
      | nil => intro _; exact ⟨[], rfl, by simp⟩
      | cons id ids ih =>
        intro h
        obtain ⟨f, h1, h2⟩ := h id (by simp)
        obtain ⟨fs, h3, h4⟩ := ih fun i hi => h i (by simp [hi])
        refine ⟨f :: fs, by simp [h1, h3], fun g hg => ?_⟩
        rcases List.mem_cons.1 hg with rfl | hg
        · exact h2
        · exact h4 g hg
    obtain ⟨fs, h1, h2⟩ := key ids hf
    refine ⟨fs, h1 ▸ hn, ?_, h2⟩
    have := congrArg List.length h1
    simp at this; omega
  · have := href.2
    rw [h1] at this
    simp at this

/- The slot of a block, and three blocks somebody made up for it. -/
private def exFr : Blk := ⟨[1], [0], 11, 0, [7], []⟩
example : ¬ OwnBlocksOnly {} (· = exFr) :=
  C121_producer_refuted {} _ exFr ⟨[2], [0], 11, 0, [7], []⟩ ⟨[3], [0], 11, 0, [7], []⟩ ⟨[4], [0], 11, 0, [7], []⟩ ⟨rfl, rfl, rfl⟩
    ⟨rfl, rfl, rfl⟩ ⟨rfl, rfl, rfl⟩ (by decide) fun c => ⟨fun h => h.1, fun h => ⟨h, h ▸ ⟨rfl, rfl, rfl⟩⟩⟩

/-! ### The peer -/

namespace Peering

/-- The reply of an honest peer that is ahead of us on our chain: the blocks of its chain above our irreversible one, one batch. -/
theorem honest_reply (o : Opts) (hb : o.batch.toNat < 2 ^ 32) (codec : Codec) (remote : Err → Nat) (lib : Lib)
    (known : Bytes → Except Err (List UInt64)) (apply : Nat → RawBlock → Option Err) (l : Local) (net : Bytes) (head : Lib) (c : Chain)
    (hk : Keeps l net head c) (synced : Bool) (hid : 0 < lib.height.toNat → c.id lib.height.toNat = lib.id)
    (hf : ∀ k, 0 < k → k ≤ head.height.toNat → Faithful codec (c.blk k)) (hup : lib.height.toNat < head.height.toNat)
    (h0 : known head.id = .ok [0]) :
    let e := syncEnv codec remote lib known apply l
    ∃ s n, Call.peerBlocks head.id s n ∈ (requestSyncBlocks o e synced).calls ∧ e.blocks head.id s n =
      .ok ((List.range (min (head.height.toNat - lib.height.toNat) o.batch.toNat)).map fun i => c.blk (lib.height.toNat + 1 + i)) := by
  intro e
  have hht := head.height.toNat_lt
  set n := min (head.height.toNat - lib.height.toNat) o.batch.toNat with hn
  set bs := (List.range n).map (fun i => c.blk (lib.height.toNat + 1 + i)) with hbs
  have hs0 : (UInt64.ofNat (lib.height.toNat + 1)).toNat = lib.height.toNat + 1 := by
    rw [UInt64.toNat_ofNat', Nat.mod_eq_of_lt (by omega)]
  have hn0 : (UInt32.ofNat n).toNat = n := by
    rw [UInt32.toNat_ofNat', Nat.mod_eq_of_lt (by omega)]
  have hw : Wanted e head.id head.height := by
    refine ⟨(askHead_ok remote l head.id head.height).2 hk.top, hup, h0, fun hl0 => ?_⟩
    refine (askAncestor_ok remote l head.id lib.height lib.id).2 ?_
    obtain ⟨it, hit, hl1, hx1⟩ := hk.store lib.height 1 hl0 (by rw [show (1 : UInt32).toNat = 1 from rfl]; omega)
    obtain ⟨x, rfl⟩ := List.length_eq_one_iff.1 hl1
    exact ⟨x, hit, by rw [(hx1 0 x rfl).2, Nat.add_zero, hid hl0]⟩
  obtain ⟨items, hi, hlen, hx⟩ := hk.store (UInt64.ofNat (lib.height.toNat + 1)) (UInt32.ofNat n) (by omega) (by omega)
  refine ⟨UInt64.ofNat (lib.height.toNat + 1), UInt32.ofNat n, ?_, ?_⟩
  · refine (C39_window o e synced head.id _ _).2 ⟨head.height, hw, hs0, ?_⟩
    rw [hn0, Nat.mod_eq_of_lt (by omega)]; rfl
  · refine C44_honest codec l remote head.id _ _ items bs hi ?_ (by rw [hn0]; simp [hbs]) ?_
    · apply List.ext_getElem
      · simp [hlen, hn0, hbs]
      · intro i h1 h2
        simp at h1
        have := (hx i items[i] (by simp [h1])).1
        rw [hs0] at this
        simp [hbs, this]
    · intro b hb'
      simp only [hbs, List.mem_map, List.mem_range] at hb'
      obtain ⟨i, hi', rfl⟩ := hb'
      exact hf _ (by omega) (by omega)

end Peering

/-- C121. An honest peer is accused in a round exactly of what our own applicator says of its blocks: the first answer that is neither
success nor "irreversible already", if there is one. -/
theorem C121_accused_of (o : Opts) (hb0 : 0 < o.batch.toNat) (hb : o.batch.toNat < 2 ^ 32) (codec : Codec) (remote : Err → Nat) (lib : Lib)
    (known : Bytes → Except Err (List UInt64)) (apply : Nat → RawBlock → Option Err) (l : Local) (net : Bytes) (head : Lib) (c : Chain)
    (hk : Keeps l net head c) (synced : Bool) (hid : 0 < lib.height.toNat → c.id lib.height.toNat = lib.id)
    (hf : ∀ k, 0 < k → k ≤ head.height.toNat → Faithful codec (c.blk k)) (hup : lib.height.toNat < head.height.toNat)
    (h0 : known head.id = .ok [0]) (x : Err) :
    (requestSyncBlocks o (syncEnv codec remote lib known apply l) synced).out = .err x ↔
      ∃ j e, j < min (head.height.toNat - lib.height.toNat) o.batch.toNat ∧ apply j (c.blk (lib.height.toNat + 1 + j)) = some e ∧
        ¬ Passes (some e) ∧ x = Spec.PeerConn.reported e ∧ ∀ i, i < j → Passes (apply i (c.blk (lib.height.toNat + 1 + i))) := by
  obtain ⟨s, n, h1, h2⟩ := honest_reply o hb codec remote lib known apply l net head c hk synced hid hf hup h0
  set N := min (head.height.toNat - lib.height.toNat) o.batch.toNat with hN
  have hget : ∀ j b, ((List.range N).map fun i => c.blk (lib.height.toNat + 1 + i))[j]? = some b ↔
      j < N ∧ c.blk (lib.height.toNat + 1 + j) = b := by
    intro j b
    simp only [List.getElem?_map, List.getElem?_range', Option.map_eq_some_iff]
    by_cases hj : j < N
    · simp [hj]
    · simp [hj]
  have hhead : ∀ j, j < N → (c.blk (lib.height.toNat + 1 + j)).header.isSome := by
    intro j hj
    obtain ⟨h, hh, _⟩ := hk.heights (lib.height.toNat + 1 + j) (by omega) (by omega)
    rw [hh]; rfl
  obtain ⟨k, hk1, hcase⟩ := C40_in_order o _ synced head.id s n h1 _ h2
  rcases hcase with ⟨_, hall, ho⟩ | ⟨j, b, e, _, hj, _, he, hnp, ho, hbefore⟩ | ⟨j, b, _, hj, hnone, _⟩
  · constructor
    · intro hx
      rcases ho with ho | ⟨h3, _⟩
      · rw [ho] at hx; cases hx
      · have := congrArg List.length h3
        simp at this; omega
    · rintro ⟨j, e, hj, he, hnp, _⟩
      have := (hall j _ ((hget j _).2 ⟨hj, rfl⟩)).2
      exact absurd (he ▸ this) hnp
  · obtain ⟨hjN, rfl⟩ := (hget j b).1 hj
    rw [ho]
    constructor
    · intro hx
      cases hx
      exact ⟨j, e, hjN, he, hnp, rfl, fun i hi => (hbefore i _ hi ((hget i _).2 ⟨by omega, rfl⟩)).2⟩
    · rintro ⟨j', e', hj', he', hnp', rfl, hb'⟩
      have : j' = j := by
        rcases Nat.lt_trichotomy j' j with h | h | h
        · exact absurd (he' ▸ (hbefore j' _ h ((hget j' _).2 ⟨hj', rfl⟩)).2) hnp'
        · exact h
        · exact absurd (he ▸ hb' j h) hnp
      subst this
      have h3 : some e' = some e := he'.symm.trans he
      cases h3; rfl
  · obtain ⟨hjN, rfl⟩ := (hget j b).1 hj
    have := hhead j hjN
    rw [hnone] at this; cases this

/-- C121, refuted for the peer. Three blocks that anybody has made up and handed over for the slot of the block `b` with number `j` of
the batch; the earlier blocks of the batch are accepted; `b` itself is handed to the applicator, which answers. Then the round with the
honest peer, which gave us its chain as it is, ends with the error "fork bomb"; the error handler has the peer disconnected, whatever
happened before; and a peer without any earlier error is kept out for an hour. -/
theorem C121_honest_peer_refuted (o : Opts) (hb : o.batch.toNat < 2 ^ 32) (codec : Codec) (remote : Err → Nat)
    (lib : Lib) (known : Bytes → Except Err (List UInt64)) (apply : Nat → RawBlock → Option Err) (l : Local) (net : Bytes) (head : Lib)
    (c : Chain) (hk : Keeps l net head c) (synced : Bool) (hid : 0 < lib.height.toNat → c.id lib.height.toNat = lib.id)
    (hf : ∀ k, 0 < k → k ≤ head.height.toNat → Faithful codec (c.blk k)) (hup : lib.height.toNat < head.height.toNat)
    (h0 : known head.id = .ok [0])
    (j : Nat) (hj : j < min (head.height.toNat - lib.height.toNat) o.batch.toNat) (b : Blk)
    (hblk : (c.blk (lib.height.toNat + 1 + j)).toBlk = some b)
    (hbefore : ∀ i, i < j → Passes (apply i (c.blk (lib.height.toNat + 1 + i))))
    (ao : AppOpts) (hi lib₀ : UInt64) (T0 : Int) (ls : List App.Label) (s s' : AState)
    (hr : App.run ao (App.init hi lib₀ T0) ls = some s) (f₁ f₂ f₃ : Blk) (h₁ : HandedSince ls b f₁) (h₂ : HandedSince ls b f₂)
    (h₃ : HandedSince ls b f₃) (c₁ : Claims f₁ b) (c₂ : Claims f₂ b) (c₃ : Claims f₃ b) (hd : [f₁.id, f₂.id, f₃.id, b.id].Nodup)
    (hst : App.step ao s (.applyBlock b) = some s')
    (hans : ∀ e, Refused s s' b e → apply j (c.blk (lib.height.toNat + 1 + j)) = some e) :
    (requestSyncBlocks o (syncEnv codec remote lib known apply l) synced).out = .err (.sentinel .forkBomb) ∧
    (∀ (d : Decay) (hist : List (Int × Event)) (t : Int) (p : Bytes) (a : MAddr), d.NonIncreasing →
      InOrder (entriesFor .default a.ip hist ++ [(t, .read)]) → totalCharged (entriesFor .default a.ip hist) + 200000 < 2 ^ 64 →
      ((new.run d .default hist).handle d .default t (.perr p (some a) (.sentinel .forkBomb))).2 = .disconnect (some p)) ∧
    ∀ (t0 t : Int) (p : Bytes) (a : MAddr), t0 ≤ t → t - t0 ≤ 3600 * 1000000000 →
      let d := realDecay ErrOpts.default.halflife
      ((new.run d .default [(t0, .perr p (some a) (.sentinel .forkBomb))]).handle d .default t (.canConnect a)).2 = .allowed false := by
  have hsev : Sentinel.forkBomb ∈ severe := by decide
  refine ⟨?_, ?_, ?_⟩
  · rw [C121_accused_of o (by omega) hb codec remote lib known apply l net head c hk synced hid hf hup h0]
    refine ⟨j, .sentinel .forkBomb, hj, hans _ (C121_framed_partial hr h₁ h₂ h₃ c₁ c₂ c₃ hd hst), ?_, ?_, hbefore⟩
    · rintro (h | ⟨e, he, h⟩)
      · cases h
      · cases he; revert h; decide
    · exact ((C40_class (.sentinel .forkBomb)).2.1 (by decide)).symm
  · intro d hist t p a hdn ho hsum
    exact C26_severe_disconnects d hdn hist t p a _ .forkBomb hsev (by decide) ho hsum
  · intro t0 t p a ht hle
    have := C72_one_hour t0 t ht p a (.sentinel .forkBomb) .forkBomb hsev (by decide)
    rw [decide_eq_false (by omega)] at this
    exact this

/-- C121. What this costs: somebody who hands over three blocks that the chain refuses is not disconnected for them. -/
theorem C121_price_partial (d : Decay) (hd : ∀ s, d 0 s = s) (t : Int) (p : Bytes) (a : MAddr) (e : Err)
    (he : e.is .blockApplication = true) (n : Nat) (hn : n < 3) :
    ((new.run d .default (List.replicate n (t, .perr p (some a) e))).handle d .default t (.perr p (some a) e)).2 = .disconnect none := by
  rw [C72_tolerance d hd t p a e n (by omega)]
  have : e.root = some .blockApplication := by simpa [Err.is_eq_root] using he
  rw [this, if_neg]
  rw [show price (some .blockApplication) = 5000 from rfl]
  omega

/-! ### Example: a peer with a chain of three blocks, and three blocks made up for the slot of its second -/

private def frChain : Chain where
  blk k := { id := some [k.toUInt8], header := some { previous := some [k.toUInt8 - 1], height := k.toUInt64, timestamp := 0, signer := some [7] } }
  id k := [k.toUInt8]

private def frLocal : Local where
  chainID := .ok [7]
  head := .ok (some ⟨[3], 3⟩)
  byHeight _ s n := .ok ((List.range n.toNat).map fun i => ⟨frChain.id (s.toNat + i), 0, some (frChain.blk (s.toNat + i))⟩)

private def frCodec : Codec where
  marshal b := match b with
    | some b => .ok (str b.id)
    | none => .error (.other 0)
  unmarshal x := .ok (frChain.blk (x.headD 0).toNat)

private theorem frKeeps : Keeps frLocal [7] ⟨[3], 3⟩ frChain where
  net := rfl
  top := rfl
  store := by
    intro s n _ _
    refine ⟨_, rfl, by simp, ?_⟩
    intro i x hx
    simp only [List.getElem?_map, Option.map_eq_some_iff, List.getElem?_eq_some_iff] at hx
    obtain ⟨j, ⟨hj, rfl⟩, rfl⟩ := hx
    simp
  heights := by
    intro k h0 h3
    refine ⟨_, rfl, ?_⟩
    have h3' : k ≤ 3 := h3
    interval_cases k <;> rfl

private def frFake (n : UInt8) : Blk := ⟨[n], [1], 2, 0, [7], []⟩

private def frForged : List App.Label := [.applyBlock (frFake 21), .applyBlock (frFake 22), .applyBlock (frFake 23)]

private def frState : AState := ((App.run {} (App.init 1 0 0) frForged).getD (App.init 1 0 0))

private def frApply : Nat → RawBlock → Option Err := fun i b =>
  match b.toBlk with
  | some b => if i = 0 then none else (applyBlock frState b).log.findSome? fun | .refused _ e => e | _ => none
  | none => none

example : (requestSyncBlocks .default (syncEnv frCodec (fun _ => 0) ⟨[], 0⟩ (fun _ => .ok [0]) frApply frLocal) false).out =
    .err (.sentinel .forkBomb) := by
  refine (C121_honest_peer_refuted .default (by decide) frCodec (fun _ => 0) ⟨[], 0⟩ (fun _ => .ok [0]) frApply frLocal [7] ⟨[3], 3⟩ frChain
    frKeeps false (by intro h; cases h) ?_ (by decide) rfl 1 (by decide +kernel) ⟨[2], [1], 2, 0, [7], []⟩ (by decide +kernel) ?_ {} 1 0 0
    frForged frState _ (by decide +kernel) (frFake 21) (frFake 22) (frFake 23) ⟨[], _, rfl, by simp⟩ ⟨[_], [_], rfl, by simp⟩
    ⟨[_, _], [], rfl, by simp⟩ ⟨rfl, rfl, rfl⟩ ⟨rfl, rfl, rfl⟩ ⟨rfl, rfl, rfl⟩ (by decide) rfl ?_).1
  · intro k h0 h3
    have h3' : k ≤ 3 := h3
    interval_cases k <;> exact ⟨_, rfl, rfl⟩
  · intro i hi
    obtain rfl : i = 0 := by omega
    exact Or.inl (by decide +kernel)
  · intro e he
    have h1 : frApply 1 (frChain.blk (0 + 1 + 1)) = some (.sentinel .forkBomb) := by decide +kernel
    have h2 : (applyBlock frState ⟨[2], [1], 2, 0, [7], []⟩).log.head? = some (.refused 3 (some (.sentinel .forkBomb))) := by decide +kernel
    rw [he.1] at h2
    cases h2
    exact h1

end KP2P

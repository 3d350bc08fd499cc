import Mathlib.Data.Nat.Find
import Verif.Spec.CatchUp
import Verif.Proof.CatchUp
import Verif.Props.Honest
import Verif.Props.Applicator
import Verif.Props.AllAccepted
/-!
# C132: synchronisation puts the blocks of an honest peer on the chain

The rounds of `peer_connection.go` (C38–C41, C78, C79, C107) composed with the applicator and the chain service behind it
(C08–C18, C111, C125).
-/

namespace KP2P
open KP2P.PeerConn KP2P.PeerRPC KP2P.Peering KP2P.Spec.PeerConn KP2P.Spec.Peering KP2P.Spec.CatchUp KP2P.Link

/-- C132. When a call for a block has returned with success, the chain has the block, if the waiting time-out of blocks of the
future did not fire for it. -/
theorem C132_success_partial {o : AppOpts} {P : Link.State → Link.Label → Prop} {s : Link.State} (h : Reach o P s) (r : Nat) (b : Blk)
    (hc : Obs.call r b ∈ s.app.log) (hr : Ended s.app.log r none)
    (hd : ∀ b', Obs.delayTimeout b' ∈ s.app.log → b'.id ≠ b.id) : Has s b.id := by
  rcases hr with hr | hr
  · obtain ⟨b', hid, _, hv⟩ := C14_accepted_partial (reach_app h) r b hc hr hd
    exact hid ▸ verdict_has h b' hv
  · obtain ⟨_, x, _, hx⟩ := (App.prov_reachable (reach_app h)).good _ hr
    cases hx

private def ccFuture : Blk := ⟨[1], [0], 1, 1000000, [], []⟩
private def ccEarly : Link.State := (Link.run {} (Link.init 0 0 0 [([0], 0)]) [.act (.applyBlock ccFuture), .act (.newBlock 0), .act (.tryBlock 0),
  .act (.tick 60000000000), .act (.delayTimeout 0), .act (.status 0), .act (.callerReturns 0)]).getD (Link.init 0 0 0 [])

private theorem reach_run {o : AppOpts} {s s' : Link.State} {ls : List Link.Label} (hs : Reach o (fun _ _ => True) s)
    (h : Link.run o s ls = some s') : Reach o (fun _ _ => True) s' := by
  induction ls generalizing s with
  | nil => simp only [Link.run, Option.some.injEq] at h; exact h ▸ hs
  | cons l ls ih =>
    simp only [Link.run] at h
    split at h
    · rename_i t ht
      exact ih (.step hs trivial ht) h
    · cases h

/-- C132 without the assumption on the waiting time-out: a block of the future is reported as applied although it was never
submitted, so the chain does not have it. -/
theorem C132_success_refuted : ∃ s r b, Reach {} (fun _ _ => True) s ∧ Obs.call r b ∈ s.app.log ∧ Ended s.app.log r none ∧ ¬ Has s b.id := by
  refine ⟨ccEarly, 0, ccFuture, ?_, by decide +kernel, Or.inl (by decide +kernel), by decide +kernel⟩
  have h : (Link.run {} (Link.init 0 0 0 [([0], 0)]) [.act (.applyBlock ccFuture), .act (.newBlock 0), .act (.tryBlock 0),
    .act (.tick 60000000000), .act (.delayTimeout 0), .act (.status 0), .act (.callerReturns 0)]).isSome = true := by decide +kernel
  obtain ⟨s, hs⟩ := Option.isSome_iff_exists.1 h
  unfold ccEarly
  rw [hs]
  exact reach_run (.init 0 0 0 _ (by decide)) hs

/-- C132. A round that ends well, with whatever peer: every block of it that was handed to the applicator is on the chain, or was
reported as irreversible. -/
theorem C132_round_partial {ao : AppOpts} {P : Link.State → Link.Label → Prop} {s : Link.State} (h : Reach ao P s) (o : Opts)
    (e : SyncEnv) (synced : Bool) (hok : (requestSyncBlocks o e synced).out = .ok)
    (hres : ∀ j b, (applied (requestSyncBlocks o e synced).calls)[j]? = some b → Result s.app.log b (e.apply j b))
    (hd : ∀ b', Obs.delayTimeout b' ∈ s.app.log → ∀ b ∈ applied (requestSyncBlocks o e synced).calls, ∀ x, b.toBlk = some x → b'.id ≠ x.id)
    (j : Nat) (b : RawBlock) (hj : (applied (requestSyncBlocks o e synced).calls)[j]? = some b) :
    (∃ x, b.toBlk = some x ∧ Has s x.id) ∨ ∃ y, e.apply j b = some y ∧ y.is .blockIrreversibility = true := by
  rcases sync_passes o e synced hok j b hj with hn | hi
  · obtain ⟨x, r, hx, hc, hr⟩ := hres j b hj
    rw [hn] at hr
    exact Or.inl ⟨x, hx, C132_success_partial h r x hc hr fun b' hb' => hd b' hb' b (List.mem_of_getElem? hj) x hx⟩
  · exact Or.inr hi

private noncomputable instance (c : Chain) (s : Link.State) : DecidablePred (HasUpto s c) := fun _ => Classical.propDecidable _

/-- The height up to which the chain has the blocks of `c`. -/
private noncomputable def ownHeight (c : Chain) (H : Nat) (s : Link.State) : Nat := Nat.findGreatest (HasUpto s c) H

private theorem own_has (c : Chain) (H : Nat) (s : Link.State) : HasUpto s c (ownHeight c H s) :=
  Nat.findGreatest_spec (P := HasUpto s c) (Nat.zero_le H) (fun j h0 hj => absurd hj (by omega))

private theorem own_le (c : Chain) (H : Nat) (s : Link.State) : ownHeight c H s ≤ H := Nat.findGreatest_le H

private theorem le_own {c : Chain} {H k : Nat} {s : Link.State} (hk : k ≤ H) (h : HasUpto s c k) : k ≤ ownHeight c H s :=
  Nat.le_findGreatest hk h

private theorem run_mono {ao : AppOpts} {s s' : Link.State} {ls : List Link.Label} (h : Link.run ao s ls = some s') {id : Bytes}
    (hs : Has s id) : Has s' id := by
  induction ls generalizing s with
  | nil => simp only [Link.run, Option.some.injEq] at h; exact h ▸ hs
  | cons l ls ih =>
    simp only [Link.run] at h
    split at h
    · rename_i t ht
      exact ih h (accepted_mono ht hs)
    · cases h

private theorem has_all {c : Chain} {H : Nat} {s : Link.State} (hs : Sound c H) (ht : Truthful (Upto c H) s) (h : Has s (c.id H)) :
    HasUpto s c H := by
  have key : ∀ d k, k + d = H → 0 < k → Has s (c.id k) := by
    intro d
    induction d with
    | zero => intro k hk _; rwa [show k = H by omega]
    | succ d ih =>
      intro k hk h0
      obtain ⟨m, hm⟩ := ih (k + 1) (by omega) (by omega)
      obtain ⟨x, hx, hid⟩ := hs.named (k + 1) (by omega) (by omega)
      have := (ht x ⟨k + 1, by omega, by omega, hx⟩ m (by rw [hid]; exact hm)).2
      rwa [hs.linked k h0 (by omega) x hx] at this
  exact fun j h0 hj => key (H - j) j (by omega) h0

/-- C132. Rounds with an honest peer whose head is at height `H` of its chain `c`. `σ i` is the state of applicator and chain at the
start of round `i`, which begins as described in `Begins`, with a lag `K` of irreversibility below the batch size. Each block handed
over in the round is applied before the next round, or irreversible already and then on our chain. After `H / (batch - K) + 1` rounds
our chain has all blocks of the peer. -/
theorem C132_catches_up_partial (o : Opts) (hb : o.batch.toNat < 2 ^ 32) (K : Nat) (hK : K < o.batch.toNat) (ao : AppOpts)
    (P : Link.State → Link.Label → Prop) (codec : Codec) (remote : Err → Nat) (l : Local) (net : Bytes) (head : Lib) (c : Chain)
    (hk : Keeps l net head c) (hf : ∀ k, 0 < k → k ≤ head.height.toNat → Faithful codec (c.blk k))
    (hhead : head.id = c.id head.height.toNat) (hsound : Sound c head.height.toNat)
    (σ : Nat → Link.State) (hreach : ∀ i, Reach ao P (σ i)) (hstep : ∀ i, ∃ ls, Link.run ao (σ i) ls = some (σ (i + 1)))
    (htrue : ∀ i, Truthful (Upto c head.height.toNat) (σ i)) (round : Nat → Round) (hbeg : ∀ i, Begins c head K (σ i) (round i))
    (hres : ∀ i j b, ((round i).handed o codec remote l)[j]? = some b →
      Result (σ (i + 1)).app.log b ((round i).apply j b) ∧ Passes ((round i).apply j b))
    (hd : ∀ i b, Obs.delayTimeout b ∈ (σ i).app.log → ∀ x, Upto c head.height.toNat x → b.id ≠ x.id)
    (hirr : ∀ i j b x e, ((round i).handed o codec remote l)[j]? = some b → b.toBlk = some x →
      (round i).apply j b = some e → e.is .blockIrreversibility = true → Has (σ (i + 1)) x.id) :
    ∀ n, n ≥ head.height.toNat / (o.batch.toNat - K) + 1 → HasUpto (σ n) c head.height.toNat := by
  set H := head.height.toNat with hH
  have hmono : ∀ i k, HasUpto (σ i) c k → HasUpto (σ (i + 1)) c k := by
    intro i k h j h0 hj
    obtain ⟨ls, hls⟩ := hstep i
    exact run_mono hls (h j h0 hj)
  have key := C79_catch_up_partial o.batch.toNat K H hK (fun i => (round i).lib.height.toNat) (fun i => ownHeight c H (σ i))
    (fun i => (hbeg i).lag _ (own_le c H _) (own_has c H _)) ?_
    (fun i => le_own (own_le c H _) (hmono i _ (own_has c H _)))
  · intro n hn j h0 hj
    exact own_has c H (σ n) j h0 (Nat.le_trans hj (key n hn))
  · intro i hi
    show _ ≤ _
    have hup : (round i).lib.height.toNat < H := by
      by_contra hle
      have : HasUpto (σ i) c H := fun j h0 hj => (hbeg i).has j h0 (by omega)
      have := le_own (Nat.le_refl H) this
      omega
    have hno : ¬ Has (σ i) head.id := by
      intro hhas
      rw [hhead] at hhas
      have := le_own (Nat.le_refl H) (has_all hsound (htrue i) hhas)
      omega
    -- the results of the blocks handed over, success elsewhere
    classical
    set a' : Nat → RawBlock → Option Err := fun j b => if Passes ((round i).apply j b) then (round i).apply j b else none with ha'
    have hp : ∀ j b, Passes (a' j b) := by
      intro j b
      by_cases h : Passes ((round i).apply j b)
      · simp only [ha', h, if_true]
      · simp only [ha', h, if_false]; exact Or.inl rfl
    have hcongr := sync_congr o (syncEnv codec remote (round i).lib (round i).known (round i).apply l) a' (round i).synced (fun j b hj => by
      have := (hres i j b hj).2
      simp only [ha']
      rw [if_pos this]; rfl)
    have hround := (honest_round o (by omega) hb codec remote (round i).lib (round i).known a' l net head c hk (round i).synced
      (hbeg i).lib hf hp hup ((hbeg i).known hno)).1
    have hhanded : (round i).handed o codec remote l = (List.range (min (H - (round i).lib.height.toNat) o.batch.toNat)).map
        (fun j => c.blk ((round i).lib.height.toNat + 1 + j)) := by
      rw [← hround]
      unfold Round.handed Round.result
      rw [← hcongr]
      rfl
    set lib := (round i).lib.height.toNat with hlib
    refine le_own (by omega) fun j h0 hj => ?_
    by_cases hjl : j ≤ lib
    · exact hmono i _ (hbeg i).has j h0 hjl
    · have hget : ((round i).handed o codec remote l)[j - lib - 1]? = some (c.blk j) := by
        rw [hhanded, List.getElem?_map, List.getElem?_range (show j - lib - 1 < min (H - lib) o.batch.toNat by omega), Option.map_some,
          show lib + 1 + (j - lib - 1) = j by omega]
      obtain ⟨x, hx, hid⟩ := hsound.named j h0 (by omega)
      obtain ⟨⟨x', r, hx', hc, hend⟩, hpass⟩ := hres i _ _ hget
      rw [hx] at hx'
      cases hx'
      rw [← hid]
      rcases hpass with hn | ⟨e, he, hie⟩
      · rw [hn] at hend
        exact C132_success_partial (hreach (i + 1)) r x hc hend fun b' hb' => hd (i + 1) b' hb' x ⟨j, h0, by omega, hx⟩
      · exact hirr i _ _ x e hget hx he hie

/-- C132. An honest peer makes us hand over only blocks of its chain. -/
theorem C132_handed (o : Opts) (hb0 : 0 < o.batch.toNat) (hb : o.batch.toNat < 2 ^ 32) (codec : Codec) (remote : Err → Nat) (l : Local)
    (net : Bytes) (head : Lib) (c : Chain) (hk : Keeps l net head c)
    (hf : ∀ k, 0 < k → k ≤ head.height.toNat → Faithful codec (c.blk k)) (r : Round)
    (hlib : 0 < r.lib.height.toNat → c.id r.lib.height.toNat = r.lib.id) :
    ∃ n, n ≤ o.batch.toNat ∧ r.lib.height.toNat + n ≤ max r.lib.height.toNat head.height.toNat ∧
      r.handed o codec remote l = (List.range n).map fun j => c.blk (r.lib.height.toNat + 1 + j) := by
  by_cases hne : r.handed o codec remote l = []
  · exact ⟨0, by omega, by omega, by simp [hne]⟩
  · have hhead : (syncEnv codec remote r.lib r.known r.apply l).peerHead = .ok (head.id, head.height) :=
      (askHead_ok remote l head.id head.height).2 hk.top
    obtain ⟨hup, h0⟩ := sync_handed o _ r.synced head.id head.height hhead hne
    have hup' : r.lib.height.toNat < head.height.toNat := UInt64.lt_iff_toNat_lt.1 hup
    have hround := (honest_round o hb0 hb codec remote r.lib r.known (fun _ _ => none) l net head c hk r.synced hlib hf
      (fun _ _ => Or.inl rfl) hup' h0).1
    have hpre := sync_prefix o (syncEnv codec remote r.lib r.known r.apply l) r.synced
    have hpre' : r.handed o codec remote l <+: (List.range (min (head.height.toNat - r.lib.height.toNat) o.batch.toNat)).map
        (fun i => c.blk (r.lib.height.toNat + 1 + i)) := hround ▸ hpre
    rw [List.prefix_iff_eq_take] at hpre'
    refine ⟨min (r.handed o codec remote l).length (min (head.height.toNat - r.lib.height.toNat) o.batch.toNat), by omega, by omega, ?_⟩
    refine hpre'.trans ?_
    rw [← List.map_take, List.take_range]

/-- C132, without assumptions on the results: the chain is willing to take the blocks of the peer (in the sense of C125) and no
caller gives up; then the results are as required and the chain has all blocks of the peer in the end. -/
theorem C132_willing_partial (o : Opts) (hb : o.batch.toNat < 2 ^ 32) (K : Nat) (hK : K < o.batch.toNat) (ao : AppOpts) (ho : GoodOpts ao)
    (codec : Codec) (remote : Err → Nat) (l : Local) (net : Bytes) (head : Lib) (c : Chain)
    (hk : Keeps l net head c) (hf : ∀ k, 0 < k → k ≤ head.height.toNat → Faithful codec (c.blk k))
    (hhead : head.id = c.id head.height.toNat) (hsound : Sound c head.height.toNat)
    (σ : Nat → Link.State) (hreach : ∀ i, Reach ao (Fit (Upto c head.height.toNat) ao) (σ i))
    (hstep : ∀ i, ∃ ls, Link.run ao (σ i) ls = some (σ (i + 1)))
    (htrue : ∀ i, Truthful (Upto c head.height.toNat) (σ i)) (hclean : ∀ i, Clean (Upto c head.height.toNat) (σ i).app.log)
    (round : Nat → Round) (hbeg : ∀ i, Begins c head K (σ i) (round i))
    (hres : ∀ i j b, ((round i).handed o codec remote l)[j]? = some b →
      Result (σ (i + 1)).app.log b ((round i).apply j b) ∧ (round i).apply j b ≠ some (.sentinel .blockApplicationTimeout)) :
    ∀ n, n ≥ head.height.toNat / (o.batch.toNat - K) + 1 → HasUpto (σ n) c head.height.toNat := by
  have hin : ∀ (i j : Nat) (b : RawBlock), ((round i).handed o codec remote l)[j]? = some b → ∀ x, b.toBlk = some x → Upto c head.height.toNat x := by
    intro i j b hj x hx
    obtain ⟨n, _, hn, hh⟩ := C132_handed o (by omega) hb codec remote l net head c hk hf (round i) (hbeg i).lib
    have hm := List.mem_of_getElem? hj
    rw [hh] at hm
    obtain ⟨m, hm', rfl⟩ := List.mem_map.1 hm
    have := List.mem_range.1 hm'
    exact ⟨_, by omega, by omega, hx⟩
  have hgood : ∀ (i j : Nat) (b : RawBlock), ((round i).handed o codec remote l)[j]? = some b → (round i).apply j b = none := by
    intro i j b hj
    obtain ⟨⟨x, r, hx, hc, hend⟩, hto⟩ := hres i j b hj
    have hS := hin i j b hj x hx
    obtain ⟨hsafe, _⟩ := reach_safe ho (hreach (i + 1)) (hclean (i + 1))
    rcases hend with hr | hr
    · rcases C08_returned_value (reach_app (hreach (i + 1))) r _ hr with ha | ha
      · exact (hsafe.ans x r _ hS hc ha).1
      · exact absurd ha hto
    · exact absurd hr ((hclean (i + 1)).refused x r _ hS hc)
  refine C132_catches_up_partial o hb K hK ao _ codec remote l net head c hk hf hhead hsound σ hreach hstep htrue round hbeg
    (fun i j b hj => ⟨(hres i j b hj).1, Or.inl (hgood i j b hj)⟩) ?_ ?_
  · intro i b hb' x hx hid
    obtain ⟨r, hr⟩ : App.Known (σ i).app.log b := (App.prov_reachable (reach_app (hreach i))).good _ hb'
    have := (hclean i).one x hx b ⟨r, hr⟩ hid
    subst this
    exact (hclean i).patient b hx hb'
  · intro i j b x e hj _ he
    rw [hgood i j b hj] at he
    cases he

/-! ### Example: three blocks in two rounds, the second block twice -/

def ccChain : Chain where
  blk k := { id := some [k.toUInt8], header := some { previous := some [(k - 1).toUInt8], height := k.toUInt64, timestamp := 0, signer := none } }
  id k := [k.toUInt8]

def ccPeer : Local where
  chainID := .ok [7]
  head := .ok (some ⟨[3], 3⟩)
  byHeight _ s n := .ok ((List.range n.toNat).map fun i => ⟨ccChain.id (s.toNat + i), 0, some (ccChain.blk (s.toNat + i))⟩)

def ccCodec : Codec where
  marshal b := match b with
    | some b => .ok (str b.id)
    | none => .error (.other 0)
  unmarshal x := .ok (ccChain.blk (x.headD 0).toNat)

theorem ccKeeps : Keeps ccPeer [7] ⟨[3], 3⟩ ccChain where
  net := rfl
  top := rfl
  store := by
    intro s n _ _
    refine ⟨_, rfl, by simp, ?_⟩
    intro i x hx
    simp only [List.getElem?_map, Option.map_eq_some_iff, List.getElem?_eq_some_iff] at hx
    obtain ⟨j, ⟨hj, rfl⟩, rfl⟩ := hx
    simp
  heights := by
    intro k h0 h3
    refine ⟨_, rfl, ?_⟩
    have : k ≤ 3 := h3
    interval_cases k <;> rfl

def ccB1 : Blk := ⟨[1], [0], 1, 0, [], []⟩
def ccB2 : Blk := ⟨[2], [1], 2, 0, [], []⟩
def ccB3 : Blk := ⟨[3], [2], 3, 0, [], []⟩

theorem ccUpto : Upto ccChain 3 = (· ∈ [ccB1, ccB2, ccB3]) := by
  funext x
  apply propext
  constructor
  · rintro ⟨k, h0, h3, hx⟩
    interval_cases k <;> (cases hx; decide)
  · intro hx
    simp only [List.mem_cons, List.not_mem_nil, or_false] at hx
    rcases hx with rfl | rfl | rfl
    · exact ⟨1, by omega, by omega, by decide⟩
    · exact ⟨2, by omega, by omega, by decide⟩
    · exact ⟨3, by omega, by omega, by decide⟩

/-- A node with the genesis block. -/
def ccS0 : Link.State := Link.init 0 0 0 [([0], 0)]

def ccApply (b : Blk) (r : Nat) : List Link.Label :=
  [.act (.applyBlock b), .act (.newBlock 0), .act (.tryBlock 0), .act (.work 0), .accept b.id b.previous b.height,
   .act (.rpcReturn 0 none), .deliver 0, .act (.status 0), .act (.callerReturns r)]

private def ccRun1 : List Link.Label := ccApply ccB1 0 ++ ccApply ccB2 1
/-- The second block is on the chain already; the chain answers with success again. -/
private def ccRun2 : List Link.Label :=
  [.act (.applyBlock ccB2), .act (.newBlock 0), .act (.tryBlock 0), .act (.work 0), .act (.rpcReturn 0 none), .act (.status 0),
   .act (.callerReturns 2)] ++ ccApply ccB3 3

private def ccS1 : Link.State := (checkedFit true [ccB1, ccB2, ccB3] {} ccS0 ccRun1).getD ccS0
private def ccS2 : Link.State := (checkedFit true [ccB1, ccB2, ccB3] {} ccS1 ccRun2).getD ccS0

private theorem ccLog1 : ∃ new, ccS2.app.log = new ++ ccS1.app.log := ⟨ccS2.app.log.take (ccS2.app.log.length - ccS1.app.log.length), by decide +kernel⟩

/-- A checked run is a run. -/
private theorem run_of_checked {time : Bool} {bs : List Blk} {o : AppOpts} {s s' : Link.State} {ls : List Link.Label}
    (h : checkedFit time bs o s ls = some s') : Link.run o s ls = some s' := by
  induction ls generalizing s with
  | nil => exact h
  | cons l ls ih =>
    simp only [checkedFit] at h
    split at h
    · split at h
      · rename_i t ht
        simp only [Link.run, ht]
        exact ih h
      · cases h
    · cases h

private theorem ccRun1_eq : checkedFit true [ccB1, ccB2, ccB3] {} ccS0 ccRun1 = some ccS1 := by
  have : (checkedFit true [ccB1, ccB2, ccB3] {} ccS0 ccRun1).isSome = true := by decide +kernel
  obtain ⟨s, hs⟩ := Option.isSome_iff_exists.1 this
  simp [ccS1, hs]

private theorem ccRun2_eq : checkedFit true [ccB1, ccB2, ccB3] {} ccS1 ccRun2 = some ccS2 := by
  have : (checkedFit true [ccB1, ccB2, ccB3] {} ccS1 ccRun2).isSome = true := by decide +kernel
  obtain ⟨s, hs⟩ := Option.isSome_iff_exists.1 this
  simp [ccS2, hs]

private def ccσ : Nat → Link.State
  | 0 => ccS0
  | 1 => ccS1
  | _ => ccS2

private def ccRound : Nat → Round
  | 0 => ⟨⟨[], 0⟩, fun _ => .ok [0], fun _ _ => none, false⟩
  | 1 => ⟨⟨[1], 1⟩, fun _ => .ok [0], fun _ _ => none, false⟩
  | _ => ⟨⟨[2], 2⟩, fun _ => .ok [3], fun _ _ => none, true⟩

example : ∀ n, n ≥ 4 → HasUpto (ccσ n) ccChain 3 := by
  have r0 : Reach {} (FitOr true (· ∈ [ccB1, ccB2, ccB3]) {}) ccS0 := .init 0 0 0 _ (by decide)
  have r1 := checkedFit_sound r0 ccRun1_eq
  have r2 := checkedFit_sound r1 ccRun2_eq
  have clean2 : Clean (· ∈ [ccB1, ccB2, ccB3]) ccS2.app.log := (handed_of (by decide +kernel)).clean
  refine C132_willing_partial { checkpoints := [], batch := 2, delta := 5 } (by decide) 1 (by decide) {} ⟨by decide, by decide⟩ ccCodec (fun _ => 0) ccPeer [7]
    ⟨[3], 3⟩ ccChain ccKeeps ?_ rfl ⟨?_, ?_⟩ ccσ ?_ ?_ ?_ ?_ ccRound ?_ ?_
  · intro k h0 h3
    refine ⟨_, rfl, ?_⟩
    have : k ≤ 3 := h3
    interval_cases k <;> rfl
  · intro k h0 h3
    have : k ≤ 3 := h3
    interval_cases k <;> exact ⟨_, rfl, rfl⟩
  · intro k h0 h3 x hx
    have : k < 3 := h3
    interval_cases k <;> (cases hx; rfl)
  · show ∀ i, Reach {} (Fit (Upto ccChain 3) {}) (ccσ i)
    rw [ccUpto]
    rintro (_ | _ | i)
    · exact fit_of r0
    · exact fit_of r1
    · exact fit_of r2
  · rintro (_ | _ | i)
    · exact ⟨_, run_of_checked ccRun1_eq⟩
    · exact ⟨_, run_of_checked ccRun2_eq⟩
    · exact ⟨[], rfl⟩
  · show ∀ i, Truthful (Upto ccChain 3) (ccσ i)
    rw [ccUpto]
    rintro (_ | _ | i)
    · exact truthful_of (by decide +kernel)
    · exact truthful_of (by decide +kernel)
    · exact truthful_of (s := ccS2) (by decide +kernel)
  · show ∀ i, Clean (Upto ccChain 3) (ccσ i).app.log
    rw [ccUpto]
    rintro (_ | _ | i)
    · exact clean2.back (by rintro x ⟨⟩)
    · refine clean2.back fun x hx => ?_
      obtain ⟨new, hn⟩ := ccLog1
      rw [hn]
      exact List.mem_append_right _ hx
    · exact clean2
  · rintro (_ | _ | i)
    · refine ⟨fun h => absurd h (by decide), fun j h0 hj => absurd hj (by simp [ccRound]; omega), ?_, fun _ => rfl⟩
      rintro k hk h
      have hk : k ≤ 3 := hk
      interval_cases k
      · exact Nat.zero_le _
      all_goals exact absurd (h 1 (by omega) (by omega)) (by decide +kernel)
    · refine ⟨fun _ => rfl, ?_, ?_, fun _ => rfl⟩
      · intro j h0 hj
        have hj : j ≤ 1 := hj
        interval_cases j
        decide +kernel
      · rintro k hk h
        have hk : k ≤ 3 := hk
        show k ≤ 1 + 1
        interval_cases k
        · omega
        · omega
        · omega
        · exact absurd (h 3 (by omega) (by omega)) (by decide +kernel)
    · refine ⟨fun _ => rfl, ?_, fun k hk _ => hk, fun h => absurd ?_ h⟩
      · intro j h0 hj
        have hj : j ≤ 2 := hj
        show Has ccS2 (ccChain.id j)
        interval_cases j <;> decide +kernel
      · show Has ccS2 [3]
        decide +kernel
  · rintro (_ | _ | i) j b hj
    · have h0 : (ccRound 0).handed { checkpoints := [], batch := 2, delta := 5 } ccCodec (fun _ => 0) ccPeer = [ccChain.blk 1, ccChain.blk 2] := by decide +kernel
      rw [h0] at hj
      refine ⟨?_, (by rintro ⟨⟩)⟩
      match j, hj with
      | 0, hj => cases hj; exact ⟨ccB1, 0, by decide, by decide +kernel, Or.inl (by decide +kernel)⟩
      | 1, hj => cases hj; exact ⟨ccB2, 1, by decide, by decide +kernel, Or.inl (by decide +kernel)⟩
      | j + 2, hj => cases hj
    · have h0 : (ccRound 1).handed { checkpoints := [], batch := 2, delta := 5 } ccCodec (fun _ => 0) ccPeer = [ccChain.blk 2, ccChain.blk 3] := by decide +kernel
      rw [h0] at hj
      refine ⟨?_, (by rintro ⟨⟩)⟩
      match j, hj with
      | 0, hj => cases hj; exact ⟨ccB2, 2, by decide, by decide +kernel, Or.inl (by decide +kernel)⟩
      | 1, hj => cases hj; exact ⟨ccB3, 3, by decide, by decide +kernel, Or.inl (by decide +kernel)⟩
      | j + 2, hj => cases hj
    · have h0 : (ccRound (i + 2)).handed { checkpoints := [], batch := 2, delta := 5 } ccCodec (fun _ => 0) ccPeer = [] := by
        show (ccRound 2).handed { checkpoints := [], batch := 2, delta := 5 } ccCodec (fun _ => 0) ccPeer = []
        decide +kernel
      rw [h0] at hj
      cases hj

/-- The hypotheses of `C132_success_partial` and `C132_round_partial`, for the first round of the example. -/
example : Reach {} (Fit (· ∈ [ccB1, ccB2, ccB3]) {}) ccS1 ∧ Obs.call 1 ccB2 ∈ ccS1.app.log ∧ Ended ccS1.app.log 1 none ∧
    (∀ b', Obs.delayTimeout b' ∉ ccS1.app.log) ∧
    ((ccRound 0).result { checkpoints := [], batch := 2, delta := 5 } ccCodec (fun _ => 0) ccPeer).out = .ok ∧
    ((ccRound 0).handed { checkpoints := [], batch := 2, delta := 5 } ccCodec (fun _ => 0) ccPeer)[1]? = some (ccChain.blk 2) := by
  refine ⟨fit_of (checkedFit_sound (.init 0 0 0 _ (by decide)) ccRun1_eq), by decide +kernel, Or.inl (by decide +kernel), ?_, by decide +kernel,
    by decide +kernel⟩
  intro b' h
  have : (ccS1.app.log.all fun | .delayTimeout _ => false | _ => true) = true := by decide +kernel
  exact absurd (List.all_eq_true.1 this _ h) (by simp)

end KP2P

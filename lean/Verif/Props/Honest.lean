import Verif.Spec.Peering
import Verif.Props.Peering
import Verif.Props.Session
/-!
# C107, C108: sessions with honest peers and with strangers; C79 for actual rounds
-/

namespace KP2P
open KP2P.PeerConn KP2P.PeerRPC KP2P.Peering KP2P.Spec.PeerConn KP2P.Spec.Peering

/-! ### C107: honest peers -/

/-- C107. A handshake with an honest peer of our network succeeds. -/
theorem C107_handshake (o : Opts) (net : Bytes) (e : HsEnv) (h : HonestHandshake o net e) : (handshake o e).err = none := by
  obtain ⟨remote, v, l, head, c, rfl, hv, hk, hc⟩ := h
  refine (C78_handshake o remote v net l hv).2 ⟨hk.net, head.id, head.height, hk.top, fun k hkm => ?_⟩
  obtain ⟨h1, h2, h3⟩ := hc k hkm
  obtain ⟨items, hi, hlen, hx⟩ := hk.store k.height 1 h1 (by rw [show (1 : UInt32).toNat = 1 from rfl]; omega)
  obtain ⟨x, rfl⟩ := List.length_eq_one_iff.1 hlen
  have := (hx 0 x rfl).2
  exact ⟨x, hi, by rw [this, Nat.add_zero, h3]⟩

/-- What a round with an honest peer does. -/
theorem honest_round (o : Opts) (hb0 : 0 < o.batch.toNat) (hb : o.batch.toNat < 2 ^ 32) (codec : Codec) (remote : Err → Nat)
    (lib : Lib) (known : Bytes → Except Err (List UInt64)) (apply : Nat → RawBlock → Option Err) (l : Local) (net : Bytes) (head : Lib)
    (c : Chain) (hk : Keeps l net head c) (synced : Bool)
    (hid : 0 < lib.height.toNat → c.id lib.height.toNat = lib.id)
    (hf : ∀ k, 0 < k → k ≤ head.height.toNat → Faithful codec (c.blk k))
    (hp : ∀ j b, Passes (apply j b)) (hup : lib.height.toNat < head.height.toNat) (h0 : known head.id = .ok [0]) :
    let r := requestSyncBlocks o (syncEnv codec remote lib known apply l) synced
    applied r.calls = (List.range (min (head.height.toNat - lib.height.toNat) o.batch.toNat)).map (fun i => c.blk (lib.height.toNat + 1 + i)) ∧
      r.out = .ok := by
  have hht := head.height.toNat_lt
  set n := min (head.height.toNat - lib.height.toNat) o.batch.toNat with hn
  set bs := (List.range n).map (fun i => c.blk (lib.height.toNat + 1 + i)) with hbs
  have hn32 : n < 2 ^ 32 := by omega
  have hs0 : (UInt64.ofNat (lib.height.toNat + 1)).toNat = lib.height.toNat + 1 := by
    rw [UInt64.toNat_ofNat', Nat.mod_eq_of_lt (by omega)]
  have hn0 : (UInt32.ofNat n).toNat = n := by
    rw [UInt32.toNat_ofNat', Nat.mod_eq_of_lt (by omega)]
  obtain ⟨items, hi, hlen, hx⟩ := hk.store (UInt64.ofNat (lib.height.toNat + 1)) (UInt32.ofNat n) (by omega) (by omega)
  have hib : items.map Item.block = bs.map some := by
    apply List.ext_getElem
    · simp [hlen, hn0, hbs]
    · intro i h1 h2
      simp at h1
      have := (hx i items[i] (by simp [h1])).1
      rw [hs0] at this
      simp [hbs, this]
  refine C78_round o hb0 hb codec remote lib known apply l synced head.id head.height hk.top hup h0 ?_ items bs hib ?_ ?_ ?_ ?_
    (fun j b _ => hp j b)
  · intro hl0
    obtain ⟨it, hit, hl1, hx1⟩ := hk.store lib.height 1 hl0 (by rw [show (1 : UInt32).toNat = 1 from rfl]; omega)
    obtain ⟨x, rfl⟩ := List.length_eq_one_iff.1 hl1
    exact ⟨x, hit, by rw [(hx1 0 x rfl).2, Nat.add_zero, hid hl0]⟩
  · intro s m hs hm
    have e1 : s = UInt64.ofNat (lib.height.toNat + 1) := UInt64.toNat_inj.1 (by rw [hs, hs0])
    have e2 : m = UInt32.ofNat n := UInt32.toNat_inj.1 (by rw [hm, hn0])
    rw [e1, e2, hi]
  · simp [hbs, hn]
  · intro b hb'
    simp only [hbs, List.mem_map, List.mem_range] at hb'
    obtain ⟨i, hi', rfl⟩ := hb'
    exact hf _ (by omega) (by omega)
  · intro b hb'
    simp only [hbs, List.mem_map, List.mem_range] at hb'
    obtain ⟨i, hi', rfl⟩ := hb'
    obtain ⟨h, hh, _⟩ := hk.heights (lib.height.toNat + 1 + i) (by omega) (by omega)
    rw [hh]; rfl

/-- C107. A round with an honest peer of our network ends well. -/
theorem C107_round (o : Opts) (hb0 : 0 < o.batch.toNat) (hb : o.batch.toNat < 2 ^ 32) (net : Bytes) (e : SyncEnv) (h : HonestRound net e)
    (synced : Bool) : (requestSyncBlocks o e synced).out = .ok := by
  obtain ⟨codec, remote, known, apply, l, head, c, he, hk, hkn, hid, hf, hp⟩ := h
  have hhead : e.peerHead = .ok (head.id, head.height) := by
    rw [he]; exact (askHead_ok remote l head.id head.height).2 hk.top
  have hknown : e.blocksByID = known := by rw [he]; rfl
  by_cases hle : head.height ≤ e.lib.height
  · simp [requestSyncBlocks, hhead, hle]
  · obtain ⟨h, hh⟩ := hkn head.id
    have hup : e.lib.height.toNat < head.height.toNat := by
      rw [UInt64.not_le, UInt64.lt_iff_toNat_lt] at hle; exact hle
    by_cases hz : h = 0
    · rw [he]
      exact (honest_round o hb0 hb codec remote e.lib known apply l net head c hk synced (fun h0 => hid h0 hup) hf hp hup (hz ▸ hh)).2
    · simp [requestSyncBlocks, hhead, hle, hknown, hh, hz]

private def Unsuspected (s : Session.State) : Prop :=
  s.reporters = [] ∧ (∀ e, s.phase ≠ .reporting e) ∧ s.phase ≠ .crashed ∧ Spec.Session.failures s.log = [] ∧ Spec.Session.reports s.log = []

private theorem unsuspected_step {o : Opts} (hb0 : 0 < o.batch.toNat) (hb : o.batch.toNat < 2 ^ 32) {net : Bytes} {s s' : Session.State}
    {l : Session.Label} (hl : HonestLabel o net l) (h : Unsuspected s) (hs : Session.step o s l = some s') : Unsuspected s' := by
  obtain ⟨h1, h2, h3, h4, h5⟩ := h
  cases l with
  | handshake e =>
    have he := C107_handshake o net e hl
    simp only [Session.step] at hs
    split at hs
    · rw [he] at hs
      cases hs
      exact ⟨h1, nofun, nofun, by simpa [Spec.Session.failures] using h4, by simpa [Spec.Session.reports] using h5⟩
    · cases hs
  | round e =>
    have he := C107_round o hb0 hb net e hl s.synced
    simp only [Session.step] at hs
    split at hs
    · rw [he] at hs
      cases hs
      exact ⟨h1, nofun, nofun, by simpa [Spec.Session.failures] using h4, by simpa [Spec.Session.reports] using h5⟩
    · cases hs
  | retryTimer =>
    simp only [Session.step] at hs
    split at hs
    · cases hs; exact ⟨h1, nofun, nofun, h4, h5⟩
    · cases hs
  | report =>
    cases hp : s.phase with
    | reporting e => exact absurd hp (h2 e)
    | _ => simp [Session.step, hp] at hs
  | sleepTimer =>
    simp only [Session.step] at hs
    split at hs
    · cases hs; exact ⟨h1, nofun, nofun, h4, h5⟩
    · cases hs
  | seeDone =>
    simp only [Session.step] at hs
    split at hs
    · split at hs
      · cases hs; exact ⟨h1, nofun, nofun, h4, h5⟩
      · cases hs; exact ⟨h1, nofun, nofun, h4, h5⟩
      · rename_i e hp; exact absurd hp (h2 e)
      · cases hs
    · cases hs
  | deliver i => simp [Session.step, h1] at hs
  | giveUp i => simp [Session.step, h1] at hs
  | cancel =>
    cases hs
    exact ⟨h1, h2, h3, by simpa [Spec.Session.failures] using h4, by simpa [Spec.Session.reports] using h5⟩

/-- C107. In a session with an honest peer of our network, whose chain may grow and change from round to round, while our own node
answers and refuses none of its blocks, no error is ever reported of the peer, however long the session lasts; no handshake or round
fails; and the node does not crash. -/
theorem C107_never_accused (o : Opts) (hb0 : 0 < o.batch.toNat) (hb : o.batch.toNat < 2 ^ 32) (net : Bytes) (ls : List Session.Label)
    (hl : ∀ l ∈ ls, HonestLabel o net l) (s : Session.State) (hr : Session.run o Session.init ls = some s) :
    Spec.Session.reports s.log = [] ∧ Spec.Session.failures s.log = [] ∧ s.phase ≠ .crashed := by
  have key : ∀ (ls : List Session.Label) (a : Session.State), (∀ l ∈ ls, HonestLabel o net l) → Unsuspected a →
      Session.run o a ls = some s → Unsuspected s := by
    intro ls
    induction ls with
    | nil => intro a _ ha hra; cases hra; exact ha
    | cons l ls ih =>
      intro a hls ha hra
      rw [Session.run_cons] at hra
      cases hst : Session.step o a l with
      | none => rw [hst] at hra; cases hra
      | some b =>
        rw [hst] at hra
        exact ih b (fun x hx => hls x (List.mem_cons_of_mem _ hx)) (unsuspected_step hb0 hb (hls l (List.mem_cons_self ..)) ha hst) hra
  obtain ⟨_, _, h3, h4, h5⟩ := key ls Session.init hl (by
    refine ⟨rfl, ?_, ?_, rfl, rfl⟩ <;> simp [Session.init]) hr
  exact ⟨h5, h4, h3⟩

/-! ### C108: strangers -/

private def Outside (s : Session.State) : Prop :=
  (s.phase = .handshake ∨ s.phase = .retryWait ∨ s.phase = .ended) ∧ (∀ cs out, Session.Ev.round cs out ∉ s.log) ∧
    (∀ cs err, Session.Ev.handshake cs err ∈ s.log → err ≠ none ∧ ∀ c ∈ cs, c = .version ∨ c = .localChainID ∨ c = .peerChainID)

/-- C108. Of a peer that does not name our network nothing but its version and its network is ever asked, in any number of attempts:
no synchronisation round is started, no block of it is applied, and every attempt fails. -/
theorem C108_kept_outside (o : Opts) (net : Bytes) (ls : List Session.Label) (hl : ∀ l ∈ ls, StrangerLabel net l) (s : Session.State)
    (hr : Session.run o Session.init ls = some s) :
    (∀ cs out, Session.Ev.round cs out ∉ s.log) ∧
    (∀ cs err, Session.Ev.handshake cs err ∈ s.log → err ≠ none ∧ ∀ c ∈ cs, c = .version ∨ c = .localChainID ∨ c = .peerChainID) := by
  have key : ∀ (ls : List Session.Label) (a : Session.State), (∀ l ∈ ls, StrangerLabel net l) → Outside a →
      Session.run o a ls = some s → Outside s := by
    intro ls
    induction ls with
    | nil => intro a _ ha hra; cases hra; exact ha
    | cons l ls ih =>
      intro a hls ha hra
      rw [Session.run_cons] at hra
      cases hst : Session.step o a l with
      | none => rw [hst] at hra; cases hra
      | some b =>
        rw [hst] at hra
        refine ih b (fun x hx => hls x (List.mem_cons_of_mem _ hx)) ?_ hra
        have hl1 := hls l (List.mem_cons_self ..)
        clear ih hra hls
        obtain ⟨h1, h2, h3⟩ := ha
        cases l with
        | handshake e =>
          obtain ⟨he1, he2⟩ := hl1
          have hfail : ∃ x cs, handshakeRest o e = (cs, some x) ∧ ∀ c ∈ cs, c = Call.localChainID ∨ c = .peerChainID := by
            simp only [handshakeRest, he1]
            split
            · exact ⟨_, _, rfl, by simp⟩
            · rename_i theirs ht
              rw [ht] at he2
              rw [if_neg (fun hx => he2 (by rw [hx]))]
              exact ⟨_, _, rfl, by simp⟩
          obtain ⟨x, cs, hx, hcs⟩ := hfail
          have hhs : ∃ y, (handshake o e).err = some y ∧ ∀ c ∈ (handshake o e).calls, c = .version ∨ c = .localChainID ∨ c = .peerChainID := by
            unfold handshake
            split
            · rw [hx]; exact ⟨x, rfl, by simpa using fun c hc => Or.inr (hcs c hc)⟩
            · rename_i err herr
              split
              · rw [hx]; exact ⟨x, rfl, by simpa using fun c hc => Or.inr (hcs c hc)⟩
              · exact ⟨err, rfl, by simp⟩
          obtain ⟨y, hy, hcall⟩ := hhs
          simp only [Session.step] at hst
          split at hst
          · rw [hy] at hst
            cases hst
            refine ⟨Or.inr (Or.inl rfl), by simpa using h2, ?_⟩
            intro cs' err' hm
            simp at hm
            rcases hm with ⟨rfl, rfl⟩ | hm
            · exact ⟨nofun, hcall⟩
            · exact h3 cs' err' hm
          · cases hst
        | round e =>
          simp only [Session.step] at hst
          split at hst
          · rename_i hp; rw [hp] at h1; simp at h1
          · cases hst
        | retryTimer =>
          simp only [Session.step] at hst
          split at hst
          · cases hst; exact ⟨Or.inl rfl, h2, h3⟩
          · cases hst
        | report =>
          simp only [Session.step] at hst
          split at hst
          · rename_i e hp; rw [hp] at h1; simp at h1
          · cases hst
        | sleepTimer =>
          simp only [Session.step] at hst
          split at hst
          · rename_i e hp; rw [hp] at h1; simp at h1
          · cases hst
        | seeDone =>
          simp only [Session.step] at hst
          split at hst
          · split at hst
            · cases hst; exact ⟨Or.inr (Or.inr rfl), h2, h3⟩
            · cases hst; exact ⟨Or.inr (Or.inr rfl), h2, h3⟩
            · cases hst; exact ⟨Or.inr (Or.inr rfl), by simpa using h2, by simpa using h3⟩
            · cases hst
          · cases hst
        | deliver i =>
          simp only [Session.step] at hst
          split at hst
          · cases hst; exact ⟨h1, by simpa using h2, by simpa using h3⟩
          · cases hst
        | giveUp i =>
          simp only [Session.step] at hst
          split at hst
          · split at hst
            · cases hst; exact ⟨h1, by simpa using h2, by simpa using h3⟩
            · cases hst
          · cases hst
        | cancel => cases hst; exact ⟨h1, by simpa using h2, by simpa using h3⟩
  obtain ⟨_, h2, h3⟩ := key ls Session.init hl ⟨Or.inl rfl, by simp [Session.init], by simp [Session.init]⟩ hr
  exact ⟨h2, h3⟩

/-! ### C79 for actual rounds -/

/-- C79 as far as it holds, for the rounds as they are: an honest peer with head height `H` on a chain that contains our irreversible
blocks; round `i` starts with the last irreversible block `lib i` and our head at height `own i`, and we know the peer's head
only if we have reached it; a round leaves our head no lower than it was and than every block handed to the applicator in it;
irreversibility lags at most `K` blocks behind our head, `K` below the batch size. Then `H / (batch - K) + 1` rounds reach the
peer's head. -/
theorem C79_follow_partial (o : Opts) (hb : o.batch.toNat < 2 ^ 32) (K : Nat) (hK : K < o.batch.toNat) (codec : Codec)
    (remote : Err → Nat) (l : Local) (net : Bytes) (head : Lib) (c : Chain) (hk : Keeps l net head c)
    (hf : ∀ k, 0 < k → k ≤ head.height.toNat → Faithful codec (c.blk k))
    (lib : Nat → Lib) (own : Nat → Nat) (known : Nat → Bytes → Except Err (List UInt64)) (apply : Nat → Nat → RawBlock → Option Err)
    (synced : Nat → Bool) (hp : ∀ i j b, Passes (apply i j b))
    (hlib : ∀ i, 0 < (lib i).height.toNat → c.id (lib i).height.toNat = (lib i).id)
    (hle : ∀ i, (lib i).height.toNat ≤ own i) (hknown : ∀ i, own i < head.height.toNat → known i head.id = .ok [0])
    (hlag : ∀ i, own i ≤ (lib i).height.toNat + K) (hmono : ∀ i, own i ≤ own (i + 1))
    (heff : ∀ i, ∀ b ∈ applied (requestSyncBlocks o (syncEnv codec remote (lib i) (known i) (apply i) l) (synced i)).calls,
      ∀ h, b.header = some h → h.height.toNat ≤ own (i + 1)) :
    ∀ n, n ≥ head.height.toNat / (o.batch.toNat - K) + 1 → head.height.toNat ≤ own n := by
  refine C79_catch_up_partial o.batch.toNat K head.height.toNat hK (fun i => (lib i).height.toNat) own hlag (fun i hi => ?_) hmono
  have hup : (lib i).height.toNat < head.height.toNat := lt_of_le_of_lt (hle i) hi
  have hr := (honest_round o (by omega) hb codec remote (lib i) (known i) (apply i) l net head c hk (synced i) (hlib i) hf (hp i) hup
    (hknown i hi)).1
  set n := min (head.height.toNat - (lib i).height.toNat) o.batch.toNat with hn
  have hn0 : 0 < n := by omega
  have hmem : c.blk ((lib i).height.toNat + 1 + (n - 1)) ∈
      applied (requestSyncBlocks o (syncEnv codec remote (lib i) (known i) (apply i) l) (synced i)).calls := by
    rw [hr]
    exact List.mem_map.2 ⟨n - 1, List.mem_range.2 (by omega), rfl⟩
  obtain ⟨h, hh, hh2⟩ := hk.heights ((lib i).height.toNat + 1 + (n - 1)) (by omega) (by omega)
  have := heff i _ hmem h hh
  show own (i + 1) ≥ (lib i).height.toNat + n
  omega

/-! ### Examples -/

def honChain : Chain where
  blk k := { id := some [k.toUInt8], header := some { previous := some [], height := k.toUInt64, timestamp := 0, signer := none } }
  id k := [k.toUInt8]

def honNode : Local where
  chainID := .ok [7]
  head := .ok (some ⟨[3], 3⟩)
  byHeight _ s n := .ok ((List.range n.toNat).map fun i => ⟨honChain.id (s.toNat + i), 0, some (honChain.blk (s.toNat + i))⟩)

def honCodec : Codec where
  marshal b := match b with
    | some b => .ok (str b.id)
    | none => .error (.other 0)
  unmarshal x := .ok (honChain.blk (x.headD 0).toNat)

theorem honKeeps : Keeps honNode [7] ⟨[3], 3⟩ honChain where
  net := rfl
  top := rfl
  store := by
    intro s n _ _
    refine ⟨_, rfl, by simp, ?_⟩
    intro i x hx
    simp only [List.getElem?_map, Option.map_eq_some_iff, List.getElem?_eq_some_iff] at hx
    obtain ⟨j, ⟨hj, rfl⟩, rfl⟩ := hx
    simp
  heights := by
    intro k h0 h3
    refine ⟨_, rfl, ?_⟩
    have : k ≤ 3 := h3
    interval_cases k <;> rfl

theorem honFaithful : ∀ k, 0 < k → k ≤ 3 → Faithful honCodec (honChain.blk k) := by
  intro k h0 h3
  refine ⟨_, rfl, ?_⟩
  interval_cases k <;> rfl

def honHs : HsEnv := hsEnv (fun _ => 0) (.ok ⟨1, 0, 0⟩) (.ok [7]) honNode
def honRound : SyncEnv := syncEnv honCodec (fun _ => 0) ⟨[1], 1⟩ (fun _ => .ok [0]) (fun _ _ => none) honNode

/-- A session with an honest peer (hypotheses of C107), with a checkpoint. -/
example : ∃ s, (∀ l ∈ [Session.Label.handshake honHs, .round honRound, .sleepTimer, .round honRound, .cancel],
    HonestLabel { checkpoints := [⟨2, [2]⟩], batch := 2, delta := 5 } [7] l) ∧
    Session.run { checkpoints := [⟨2, [2]⟩], batch := 2, delta := 5 } Session.init
      [.handshake honHs, .round honRound, .sleepTimer, .round honRound, .cancel] = some s := by
  have hround : HonestRound [7] honRound :=
    ⟨honCodec, fun _ => 0, fun _ => .ok [0], fun _ _ => none, honNode, ⟨[3], 3⟩, honChain, rfl, honKeeps, fun _ => ⟨0, rfl⟩,
      fun _ _ => rfl, honFaithful, fun _ _ => Or.inl rfl⟩
  have hhs : HonestHandshake { checkpoints := [⟨2, [2]⟩], batch := 2, delta := 5 } [7] honHs := by
    refine ⟨fun _ => 0, .ok ⟨1, 0, 0⟩, honNode, ⟨[3], 3⟩, honChain, rfl, Or.inl ⟨_, rfl⟩, honKeeps, ?_⟩
    intro k hk
    simp only [List.mem_singleton] at hk
    subst hk
    exact ⟨by decide, by decide, rfl⟩
  refine ⟨_, ?_, rfl⟩
  intro l hl
  simp only [List.mem_cons, List.not_mem_nil, or_false] at hl
  rcases hl with rfl | rfl | rfl | rfl | rfl
  · exact hhs
  · exact hround
  · trivial
  · exact hround
  · trivial

/-- A session with a peer of another network (hypotheses of C108). -/
example : ∃ s, (∀ l ∈ [Session.Label.handshake { honHs with localChainID := .ok [8] }, .deliver 0, .retryTimer],
    StrangerLabel [8] l) ∧ Session.run Opts.default Session.init
      [.handshake { honHs with localChainID := .ok [8] }, .deliver 0, .retryTimer] = some s := by
  refine ⟨_, ?_, rfl⟩
  intro l hl
  simp only [List.mem_cons, List.not_mem_nil, or_false] at hl
  rcases hl with rfl | rfl | rfl
  · refine ⟨rfl, ?_⟩
    rw [show ({ honHs with localChainID := .ok [8] } : HsEnv).peerChainID = .ok [7] from rfl]
    intro h; cases h
  · trivial
  · trivial

private def exOwns (i : Nat) : Nat := min 3 (if i = 0 then 0 else i + 1)
private def exLibs (i : Nat) : Lib := ⟨[(exOwns i - 1).toUInt8], (exOwns i - 1).toUInt64⟩
private def exKnown (i : Nat) (_ : Bytes) : Except Err (List UInt64) := if exOwns i < 3 then .ok [0] else .ok [3]

private theorem exOwns_cases (i : Nat) : i = 0 ∨ i = 1 ∨ (2 ≤ i ∧ exOwns i = 3) := by
  unfold exOwns
  by_cases h : 2 ≤ i
  · right; right; rw [if_neg (by omega)]; omega
  · omega

/-- Two blocks per round and irreversibility one block behind: the hypotheses of `C79_follow_partial`, with their conclusion. -/
example : ∀ n ≥ 4, 3 ≤ exOwns n := by
  have hh : ∀ i, (exLibs i).height.toNat = exOwns i - 1 := by
    intro i
    rcases exOwns_cases i with rfl | rfl | ⟨_, h⟩
    · rfl
    · rfl
    · simp only [exLibs, h]; rfl
  refine C79_follow_partial { checkpoints := [], batch := 2, delta := 5 } (by decide) 1 (by decide) honCodec (fun _ => 0) honNode [7]
    ⟨[3], 3⟩ honChain honKeeps honFaithful exLibs exOwns exKnown (fun _ _ _ => none) (fun _ => false) (fun _ _ _ => Or.inl rfl)
    ?_ ?_ ?_ ?_ ?_ ?_
  · intro i _
    rw [hh]; rfl
  · intro i; rw [hh]; omega
  · intro i hi
    exact if_pos hi
  · intro i; rw [hh]; omega
  · intro i
    unfold exOwns
    split <;> split <;> omega
  · intro i b hb h hbh
    have key : ∀ own lib known, (applied (requestSyncBlocks { checkpoints := [], batch := 2, delta := 5 }
        (syncEnv honCodec (fun _ => 0) lib known (fun _ _ => none) honNode) false).calls).all (fun b => match b.header with
          | some h => decide (h.height.toNat ≤ own)
          | none => true) = true →
        b ∈ applied (requestSyncBlocks { checkpoints := [], batch := 2, delta := 5 }
          (syncEnv honCodec (fun _ => 0) lib known (fun _ _ => none) honNode) false).calls → h.height.toNat ≤ own := by
      intro own lib known hall hm
      have := List.all_eq_true.1 hall b hm
      simpa [hbh] using this
    rcases exOwns_cases i with rfl | rfl | ⟨h2, h⟩
    · exact key 2 _ _ (by decide +kernel) hb
    · exact key 3 _ _ (by decide +kernel) hb
    · have e1 : exLibs i = ⟨[2], 2⟩ := by simp only [exLibs, h]; rfl
      have e2 : exKnown i = fun _ => .ok [3] := by funext x; simp [exKnown, h]
      have e3 : exOwns (i + 1) = 3 := by
        rcases exOwns_cases (i + 1) with h | h | h <;> omega
      rw [e1, e2] at hb
      rw [e3]
      exact key 3 _ _ (by decide +kernel) hb

end KP2P

import Verif.Proof.Joint
import Verif.Props.EnforceCount
/-!
# C133 and C134: what honest peers have to fear from the error scores

Sessions, connection manager and error handler together (`Verif/Model/Joint.lean`).
-/

namespace KP2P
open KP2P.Enforce (Obs Admitted)
open KP2P.PeerConn KP2P.Spec KP2P.Spec.Joint KP2P.Spec.Peering
open KP2P.ErrHandler (Event)

variable {d : Spec.Decay} {eo : ErrOpts} {o : Opts}

/-- The weight of an error is its score. -/
def pts (eo : ErrOpts) (e : Err) : Nat := (getScoreForError eo e).toNat

private theorem entries_sublist (ip : Bytes) (hist : List (Int × Event)) :
    ((entriesFor eo ip hist).map Prod.fst).Sublist (hist.map Prod.fst) := by
  induction hist with
  | nil => exact .slnil
  | cons x hist ih =>
    simp only [entriesFor, List.filterMap_cons, List.map_cons] at ih ⊢
    cases x.2.entryFor eo ip with
    | none => exact .cons _ ih
    | some y => exact .cons₂ _ ih

theorem inOrder_of {s : Enforce.State} (hr : Enforce.Reachable d eo s) (ip : Bytes) (h₁ h₂ : List (Int × Event)) (t : Int)
    (x : Event) (he : s.hist = h₁ ++ (t, x) :: h₂) : InOrder (entriesFor eo ip h₁ ++ [(t, .read)]) := by
  have hs := (Enforce.invH_reach hr).sorted
  rw [he] at hs
  refine hs.sublist ?_
  rw [List.map_append, List.map_append, List.map_cons, List.map_cons, List.map_nil]
  exact (entries_sublist ip h₁).append (.cons₂ _ (List.nil_sublist _))

private theorem paid_prefix (w : Err → Nat) (ip : Bytes) {hist h₁ h₂ : List (Int × Event)} (he : hist = h₁ ++ h₂) :
    Joint.paid w ip h₁ ≤ Joint.paid w ip hist := by
  rw [he, Joint.paid_append]; omega

private theorem charged_reported {s : Enforce.State} (hr : Enforce.Reachable d eo s) {c : Conn} {e : Err} {a : MAddr} {sc : UInt64}
    {t : Time} (h : Obs.charged c e a sc t ∈ s.log) : Obs.reported c e ∈ s.log := by
  have h1 := C101_once s hr c e
  have h2 : 0 < s.log.countP (dealtB c e) := List.countP_pos_iff.2 ⟨_, h, by simp [dealtB]⟩
  exact List.count_pos_iff.1 (by omega)

private theorem weight_mem (w : Err → Nat) {p : Bytes} {log : List Obs} {c : Conn} {e : Err} (h : Obs.reported c e ∈ log)
    (hc : c.peer = p) : w e ≤ reportedWeight w p log := by
  induction log with
  | nil => cases h
  | cons x log ih =>
    simp only [reportedWeight, List.map_cons, List.sum_cons] at ih ⊢
    rcases List.mem_cons.1 h with rfl | h
    · simp [hc]
    · have := ih h; omega

/-- What a peer pays: it is refused only if what was reported of it adds up to the limit for reconnection, and at least one error was
reported of it. -/
theorem joint_refused (hd : d.NonIncreasing) (s : Enforce.State) (hr : Enforce.Reachable d eo s) (p : Bytes) (hsole : Sole s.log p)
    (c : Conn) (t : Time) (hc : Obs.refused c t ∈ s.log) (hp : c.peer = p) :
    eo.reconnect.toNat ≤ reportedWeight (pts eo) p s.log ∧ 0 < reportedWeight (fun _ => 1) p s.log := by
  have hal : Joint.Alone s.log p c.addr.ip := fun c' h1 h2 => hsole c (Or.inr ⟨t, hc⟩) hp c' h1 h2
  obtain ⟨h₁, h₂, sc, he, hb, hle⟩ := C102_refused s hr c t hc
  constructor
  · have h1 := Joint.paid_le (pts eo) p c.addr.ip s hr hal
    have h2 := paid_prefix (pts eo) c.addr.ip he
    have h3 := balance_at_le d hd _ t (inOrder_of (eo := eo) hr c.addr.ip h₁ h₂ t _ he)
    rw [hb, Option.getD_some, Joint.totalCharged_paid] at h3
    have := UInt64.le_iff_toNat_le.1 hle
    change sc.toNat ≤ Joint.paid (pts eo) c.addr.ip h₁ at h3
    omega
  · have h1 := Joint.paid_le (fun _ => 1) p c.addr.ip s hr hal
    have h2 := paid_prefix (fun _ => 1) c.addr.ip he
    rcases Nat.eq_zero_or_pos (Joint.paid (fun _ => 1) c.addr.ip h₁) with h0 | h0
    · rw [Joint.balance_none c.addr.ip h₁ h0] at hb
      simp [Balance.at] at hb
    · omega

/-- The same for disconnection. -/
theorem joint_closed (hd : d.NonIncreasing) (s : Enforce.State) (hr : Enforce.Reachable d eo s) (p : Bytes) (hsole : Sole s.log p)
    (c : Conn) (hc : Obs.closed c ∈ s.log) (hp : c.peer = p) : eo.threshold.toNat ≤ reportedWeight (pts eo) p s.log := by
  obtain ⟨post, pre, he⟩ := List.append_of_mem hc
  obtain ⟨c', e, a, sc, t, h1, h2, h3⟩ := C99_cause_partial s hr post pre c he
  have h1 : Obs.charged c' e a sc t ∈ s.log := by rw [he]; exact List.mem_append_right _ (List.mem_cons_of_mem _ h1)
  obtain ⟨x, hx1, hx2, hx3⟩ := C98_same_peer_partial s hr c' e a sc t h1
  have hal : Joint.Alone s.log p a.ip := fun y g1 g2 => hsole x (Or.inl hx1) (by rw [hx2, h2, hp]) y g1 (by rw [hx3]; exact g2)
  obtain ⟨k₁, k₂, hk, hsc⟩ := C98_amount s hr c' e a sc t h1
  have g1 := Joint.paid_le (pts eo) p a.ip s hr hal
  have g2 := paid_prefix (pts eo) a.ip (hist := s.hist) (h₁ := k₁ ++ [(t, Event.perr c'.peer (some a) e)]) (h₂ := k₂) (by rw [hk]; simp)
  rw [Joint.paid_append] at g2
  have g3 := balance_at_le d hd _ t (inOrder_of (eo := eo) hr a.ip k₁ k₂ t _ hk)
  rw [Joint.totalCharged_paid] at g3
  have g4 : Joint.paid (pts eo) a.ip [(t, Event.perr c'.peer (some a) e)] = pts eo e := by simp [Joint.paid]
  have g5 := uadd_toNat_le (((balance d (entriesFor eo a.ip k₁)).at d t).getD 0) (getScoreForError eo e)
  rw [← hsc] at g5
  have := UInt64.le_iff_toNat_le.1 h3
  change _ ≤ Joint.paid (pts eo) a.ip k₁ at g3
  change _ ≤ _ + pts eo e at g5
  omega

/-! ## C133: honest peers -/

theorem honest_costs (hb0 : 0 < o.batch.toNat) (hb : o.batch.toNat < 2 ^ 32) (net : Bytes) (w : Err → Nat) (l : Session.Label)
    (h : HonestLabel o net l) : Costs w o l 0 := by
  cases l with
  | handshake e => intro x hx; rw [C107_handshake o net e h] at hx; cases hx
  | round e => intro sy x hx; rw [C107_round o hb0 hb net e h sy] at hx; cases hx
  | _ => trivial

private theorem bill_zero (w : Err → Nat) (p : Bytes) (ls : List Joint.Label) (hg : ∀ c e, Joint.Label.gossip c e ∈ ls → c.peer ≠ p) :
    bill w (fun _ => 0) p ls = 0 := by
  induction ls with
  | nil => rfl
  | cons x ls ih =>
    have ih := ih fun c e h => hg c e (List.mem_cons_of_mem _ h)
    simp only [bill, List.map_cons, List.sum_cons] at ih ⊢
    rw [ih]
    cases x with
    | gossip c e => simp [hg c e (List.mem_cons_self ..)]
    | session q k l => simp
    | net l => rfl

/-- C133. No error is ever reported of an honest peer, nor charged to anybody on account of it; and this node never ends a connection with it. -/
theorem C133_not_disconnected (hb0 : 0 < o.batch.toNat) (hb : o.batch.toNat < 2 ^ 32) (net p : Bytes) (t : Time)
    (ls : List Joint.Label) (s : Joint.State) (hr : Joint.run d eo o (Joint.init t) ls = some s)
    (hh : ∀ k l, Joint.Label.session p k l ∈ ls → HonestLabel o net l) (hg : ∀ c e, Joint.Label.gossip c e ∈ ls → c.peer ≠ p)
    (c : Conn) (hc : c.peer = p) :
    (∀ e, Obs.reported c e ∉ s.net.log) ∧ (∀ e a sc t, Obs.charged c e a sc t ∉ s.net.log) ∧ Obs.closed c ∉ s.net.log := by
  have hreach := Joint.net_reach t ls s hr
  have h0 := Joint.reported_le (fun _ => 1) (fun _ => 0) p t ls s hr fun k l hm => honest_costs hb0 hb net _ l (hh k l hm)
  rw [bill_zero _ p ls hg] at h0
  have h1 : ∀ c e, c.peer = p → Obs.reported c e ∉ s.net.log := fun c e hc hm => by
    have := weight_mem (fun _ => 1) hm hc
    omega
  refine ⟨fun e => h1 c e hc, fun e a sc t hm => h1 c e hc (charged_reported hreach hm), fun hm => ?_⟩
  obtain ⟨post, pre, he⟩ := List.append_of_mem hm
  obtain ⟨c', e, a, sc, t, g1, g2, _⟩ := C99_cause_partial s.net hreach post pre c he
  exact h1 c' e (g2.trans hc) (charged_reported hreach (by rw [he]; exact List.mem_append_right _ (List.mem_cons_of_mem _ g1)))

/-- C133. An honest peer that shares its hosts with nobody is never refused. -/
theorem C133_not_refused (hd : d.NonIncreasing) (hb0 : 0 < o.batch.toNat) (hb : o.batch.toNat < 2 ^ 32) (net p : Bytes) (t : Time)
    (ls : List Joint.Label) (s : Joint.State) (hr : Joint.run d eo o (Joint.init t) ls = some s)
    (hh : ∀ k l, Joint.Label.session p k l ∈ ls → HonestLabel o net l) (hg : ∀ c e, Joint.Label.gossip c e ∈ ls → c.peer ≠ p)
    (hsole : Sole s.net.log p) (c : Conn) (hc : c.peer = p) (u : Time) : Obs.refused c u ∉ s.net.log := by
  intro hm
  have h1 := (joint_refused hd s.net (Joint.net_reach t ls s hr) p hsole c u hm hc).2
  have h0 := Joint.reported_le (fun _ => 1) (fun _ => 0) p t ls s hr fun k l hm => honest_costs hb0 hb net _ l (hh k l hm)
  rw [bill_zero _ p ls hg] at h0
  omega

/-! ## C134: failures that are not the peer's -/

/-- With the default scores an error that is not grave costs at most 5000 points. -/
theorem mild_score (e : Err) (h : grave e = false) : getScoreForError .default e ≤ 5000 := by
  simp only [grave, Bool.or_eq_false_iff] at h
  obtain ⟨⟨⟨⟨h1, h2⟩, h3⟩, h4⟩, h5⟩ := h
  unfold getScoreForError
  rw [h1, h2, h3, h4, h5]
  simp only [Bool.false_eq_true, if_false]
  have ite_le : ∀ (b : Prop) [Decidable b] (x y : UInt64), x ≤ 5000 → y ≤ 5000 → (if b then x else y) ≤ 5000 := by
    intro b _ x y hx hy
    split
    · exact hx
    · exact hy
  repeat' first
    | apply ite_le
    | decide

/-- A refused transaction costs at most 100. -/
theorem tx_score (e : Err) (h : txRefusal e = true) : getScoreForError .default e ≤ 100 := by
  have key : ∀ a b : Sentinel, e.is a = true → a ≠ b → e.is b = false := fun a b h1 h2 => by
    rw [← Bool.not_eq_true]; exact fun hc => h2 (Err.is_unique h1 hc)
  simp only [txRefusal, Bool.or_eq_true] at h
  unfold getScoreForError
  rcases h with h | h <;> simp [key _ _ h] <;> simp [h] <;> decide

private theorem applyLoop_mild (app : Nat → RawBlock → Option Err)
    (h : ∀ j b, Spec.PeerConn.Passes (app j b) ∨ ∃ x, app j b = some x ∧ grave x = false) (bs : List RawBlock) (i : Nat) (x : Err)
    (hx : (applyLoop app i bs).2 = .err x) : grave x = false := by
  induction bs generalizing i with
  | nil => simp [applyLoop] at hx
  | cons b bs ih =>
    unfold applyLoop at hx
    split at hx
    · cases hx
    split at hx
    · exact ih _ hx
    rename_i e he
    have hg : grave e = false := by
      rcases h i b with h | ⟨y, hy, hg⟩
      · rcases h with h | ⟨y, hy, hir⟩
        · rw [he] at h; cases h
        · rw [he] at hy; cases hy
          simp only [grave, Bool.or_eq_false_iff]
          refine ⟨⟨⟨⟨?_, ?_⟩, ?_⟩, ?_⟩, ?_⟩ <;>
          · rw [← Bool.not_eq_true]; intro hc; cases Err.is_unique hir hc
      · rw [he] at hy; cases hy; exact hg
    split at hx
    · cases hx; exact hg
    split at hx
    · cases hx; exact hg
    split at hx
    · exact ih _ hx
    · cases hx; rfl

private theorem honest_ancestor (net : Bytes) (h : SyncEnv) (hh : HonestRound net h) (id : Bytes) (height : UInt64)
    (hp : h.peerHead = .ok (id, height)) (h0 : 0 < h.lib.height) (hup : ¬ height ≤ h.lib.height) :
    h.ancestor id h.lib.height = .ok h.lib.id := by
  obtain ⟨codec, remote, known, apply, l, head, c, he, hk, hkn, hid, hf, hpass⟩ := hh
  have e1 : h.peerHead = Peering.askHead remote l := by rw [he]; rfl
  have e2 : h.ancestor = Peering.askAncestor remote l := by rw [he]; rfl
  rw [e1, (askHead_ok remote l head.id head.height).2 hk.top] at hp
  cases hp
  have hl0 : 0 < h.lib.height.toNat := UInt64.lt_iff_toNat_lt.1 h0
  have hlt : h.lib.height.toNat < head.height.toNat := by
    rw [UInt64.not_le, UInt64.lt_iff_toNat_lt] at hup; exact hup
  obtain ⟨it, hit, hl1, hx1⟩ := hk.store h.lib.height 1 hl0 (by rw [show (1 : UInt32).toNat = 1 from rfl]; omega)
  obtain ⟨x, rfl⟩ := List.length_eq_one_iff.1 hl1
  rw [e2, (askAncestor_ok remote l head.id h.lib.height h.lib.id).2 ⟨x, hit, by rw [(hx1 0 x rfl).2, Nat.add_zero, hid hl0 hlt]⟩]

private theorem callErr_mild (y : Err) : grave (PeerRPC.callErr y) = false := by
  unfold PeerRPC.callErr
  split <;> rfl

private theorem ask_mild {α : Type} (r : PeerRPC.Ret α) (x : Err)
    (h : Peering.toExcept (⟨r.val, r.err.map PeerRPC.callErr⟩ : PeerRPC.Ret α) = .error x) : grave x = false := by
  cases hr : r.err with
  | none => rw [hr] at h; cases h
  | some y => rw [hr] at h; cases h; exact callErr_mild y

private theorem decodeAll_mild (c : PeerRPC.Codec) (xs : List Bytes) (x : Err) (h : PeerRPC.decodeAll c xs = .error x) :
    grave x = false := by
  induction xs with
  | nil => cases h
  | cons y ys ih =>
    simp only [PeerRPC.decodeAll] at h
    split at h
    · cases h; rfl
    · split at h
      · rename_i hd; cases h; exact ih hd
      · cases h

private theorem askBlocks_mild (c : PeerRPC.Codec) (remote : Err → Nat) (l : PeerRPC.Local) (a : Bytes) (n : UInt64) (m : UInt32) (x : Err)
    (h : Peering.askBlocks c remote l a n m = .error x) : grave x = false := by
  simp only [Peering.askBlocks, PeerRPC.getBlocks] at h
  split at h
  · cases h; exact callErr_mild _
  · split at h
    · cases h; rfl
    · exact decodeAll_mild c _ x h

/-- However a round with an honest peer is interrupted, the error it ends with is not a grave one. -/
theorem C134_round_partial (net : Bytes) (e : SyncEnv) (hi : RoundInterrupted net e) (synced : Bool) (x : Err)
    (hx : (requestSyncBlocks o e synced).out = .err x) : grave x = false := by
  obtain ⟨h, hh, hlib, hhead, hknown, hanc, hblk, happ⟩ := hi
  have hon := hh
  obtain ⟨codec, remote, known, apply, l, head, c, he, hk, hkn, hid, hf, hpass⟩ := hh
  have e1 : h.peerHead = Peering.askHead remote l := by rw [he]; rfl
  have e2 : h.ancestor = Peering.askAncestor remote l := by rw [he]; rfl
  have e3 : h.blocks = Peering.askBlocks codec remote l := by rw [he]; rfl
  have e4 : h.blocksByID = known := by rw [he]; rfl
  have hfetch : ∀ id n, (fetch o e synced id n).out = .err x → grave x = false := by
    intro id n hx
    simp only [fetch] at hx
    split at hx
    · rename_i err herr
      cases hx
      rcases hblk id (e.lib.height + 1) (toRequest o e.lib.height n).toUInt32 with hb | ⟨y, hy, hg⟩
      · rw [herr, e3] at hb
        exact askBlocks_mild codec remote l _ _ _ _ hb.symm
      · rw [herr] at hy; cases hy; exact hg
    · rename_i bs hbs
      split at hx
      · split at hx
        · cases hx
        · split at hx <;> cases hx
      · exact applyLoop_mild e.apply happ bs 0 x (by rw [← hx])
  simp only [requestSyncBlocks] at hx
  split at hx
  · rename_i err herr
    cases hx
    rcases hhead with hb | ⟨y, hy, hg⟩
    · rw [herr, e1] at hb
      exact ask_mild _ _ hb.symm
    · rw [herr] at hy; cases hy; exact hg
  rename_i headID height hp
  split at hx
  · cases hx
  rename_i hup
  split at hx
  · rename_i err herr
    cases hx
    rcases hknown headID with hb | ⟨y, hy, hg⟩
    · obtain ⟨z, hz⟩ := hkn headID
      rw [herr, e4, hz] at hb; cases hb
    · rw [herr] at hy; cases hy; exact hg
  split at hx
  · split at hx
    · cases hx
    split at hx
    · rename_i h0
      split at hx
      · rename_i err herr
        cases hx
        rcases hanc headID e.lib.height with hb | ⟨y, hy, hg⟩
        · rw [herr, e2] at hb
          exact ask_mild _ _ hb.symm
        · rw [herr] at hy; cases hy; exact hg
      · rename_i a ha
        split at hx
        · exact hfetch _ _ hx
        · rename_i hne
          exfalso
          have hp' : h.peerHead = .ok (headID, height) := by
            rcases hhead with hb | ⟨y, hy, _⟩
            · rw [← hb]; exact hp
            · rw [hp] at hy; cases hy
          have := honest_ancestor net h hon headID height hp' (by rw [← hlib]; exact h0) (by rw [← hlib]; exact hup)
          rcases hanc headID e.lib.height with hb | ⟨y, hy, _⟩
          · rw [ha, hlib, this] at hb
            cases hb
            exact hne (by rw [hlib])
          · rw [ha] at hy; cases hy
    · exact hfetch _ _ hx
  · cases hx; rfl

/-- However a handshake with an honest peer is interrupted, the error it ends with is not a grave one, if the peer's answers about its
chain and the checkpoints arrive. -/
theorem C134_handshake_partial (net : Bytes) (e : HsEnv) (hi : HsInterrupted o net e) (x : Err) (hx : (handshake o e).err = some x) :
    grave x = false := by
  obtain ⟨h, hh, hv, hmine, hpeer, hhead, hanc⟩ := hi
  have hok := C107_handshake o net h hh
  obtain ⟨remote, v, l, head, c, he, hvf, hk, hc⟩ := hh
  have e1 : h.version = v := by rw [he]; rfl
  have e2 : h.localChainID = .ok net := by rw [he]; rfl
  have e3 : h.peerChainID = .ok net := by rw [he]; exact (askChainID_ok remote l net).2 hk.net
  have e4 : h.peerHead = .ok (head.id, head.height) := by rw [he]; exact (askHead_ok remote l head.id head.height).2 hk.top
  have rest : ∀ y, (handshakeRest o e).2 = some y → grave y = false := by
    intro y hy
    simp only [handshakeRest] at hy
    split at hy
    · rename_i err herr
      cases hy
      rcases hmine with hb | ⟨z, hz, hg⟩
      · rw [herr, e2] at hb; cases hb
      · rw [herr] at hz; cases hz; exact hg
    rename_i mine hm
    rw [hpeer, e3] at hy
    have hmn : mine = net := by
      rcases hmine with hb | ⟨z, hz, _⟩
      · rw [hm, e2] at hb; cases hb; rfl
      · rw [hm] at hz; cases hz
    simp only [hmn, if_true] at hy
    split at hy
    · rename_i err herr
      cases hy
      rcases hhead with hb | ⟨z, hz, hg⟩
      · rw [herr, e4] at hb; cases hb
      · rw [herr] at hz; cases hz; exact hg
    · rename_i id n hp
      exfalso
      have hhd : id = head.id := by
        rcases hhead with hb | ⟨z, hz, _⟩
        · rw [hp, e4] at hb; cases hb; rfl
        · rw [hp] at hz; cases hz
      have hr : (handshakeRest o h).2 = none := by
        unfold handshake at hok
        split at hok
        · exact hok
        · split at hok
          · exact hok
          · cases hok
      simp only [handshakeRest, e2, e3, e4, if_true] at hr
      rw [hanc, hhd] at hy
      rw [hr] at hy
      cases hy
  unfold handshake at hx
  split at hx
  · exact rest x hx
  · rename_i err herr
    split at hx
    · exact rest x hx
    · rename_i hm
      exfalso
      rw [hv, e1] at herr
      rcases hvf with ⟨y, hy⟩ | ⟨y, hy, hmiss⟩
      · rw [hy] at herr; cases herr
      · rw [hy] at herr; cases herr; exact hm hmiss

theorem interrupted_costs (net : Bytes) (l : Session.Label) (h : Interrupted o net l) : Costs (pts .default) o l 5000 := by
  have key : ∀ x, grave x = false → pts .default x ≤ 5000 := fun x hx => UInt64.le_iff_toNat_le.1 (mild_score x hx)
  cases l with
  | handshake e => exact fun x hx => key x (C134_handshake_partial net e h x hx)
  | round e => exact fun sy x hx => key x (C134_round_partial net e h sy x hx)
  | _ => trivial

private theorem bill_count (w : Err → Nat) (bad : Session.Label → Bool) (n : Nat) (p : Bytes) (ls : List Joint.Label)
    (hg : ∀ c e, Joint.Label.gossip c e ∈ ls → c.peer ≠ p) :
    bill w (fun l => if bad l then n else 0) p ls = n * occurrences bad p ls := by
  induction ls with
  | nil => rfl
  | cons x ls ih =>
    have ih := ih fun c e h => hg c e (List.mem_cons_of_mem _ h)
    simp only [bill, occurrences, List.map_cons, List.sum_cons, List.countP_cons] at ih ⊢
    rw [ih]
    cases x with
    | gossip c e => simp [hg c e (List.mem_cons_self ..)]
    | session q k l =>
      by_cases hq : q = p <;> cases hbl : bad l <;> simp [hq, hbl, Nat.mul_add]
      omega
    | net l => simp

/-- C134 as far as it holds, with the default scores: a peer that is honest and shares its hosts with nobody is not refused before ten of
the exchanges with it were interrupted, by failures of the connection or of our own node, and not disconnected before twenty were, if none
of them was interrupted while it was asked about its chain or a checkpoint in the handshake. -/
theorem C134_few_partial (hd : d.NonIncreasing) (hb0 : 0 < o.batch.toNat) (hb : o.batch.toNat < 2 ^ 32) (net p : Bytes) (t : Time)
    (ls : List Joint.Label) (s : Joint.State) (hr : Joint.run d .default o (Joint.init t) ls = some s) (bad : Session.Label → Bool)
    (hh : ∀ k l, Joint.Label.session p k l ∈ ls → HonestLabel o net l ∨ bad l = true ∧ Interrupted o net l)
    (hg : ∀ c e, Joint.Label.gossip c e ∈ ls → c.peer ≠ p) (hsole : Sole s.net.log p) (c : Conn) (hc : c.peer = p) :
    (occurrences bad p ls < 10 → ∀ u, Obs.refused c u ∉ s.net.log) ∧ (occurrences bad p ls < 20 → Obs.closed c ∉ s.net.log) := by
  have h0 := Joint.reported_le (pts .default) (fun l => if bad l then 5000 else 0) p t ls s hr fun k l hm => by
    rcases hh k l hm with h | ⟨h1, h2⟩
    · have := honest_costs hb0 hb net (pts .default) l h
      cases l with
      | handshake e => exact fun x hx => Nat.le_trans (this x hx) (Nat.zero_le _)
      | round e => exact fun sy x hx => Nat.le_trans (this sy x hx) (Nat.zero_le _)
      | _ => trivial
    · simp only [h1, if_true]; exact interrupted_costs net l h2
  rw [bill_count _ bad 5000 p ls hg] at h0
  have hreach := Joint.net_reach t ls s hr
  refine ⟨fun hn u hm => ?_, fun hn hm => ?_⟩
  · have h1 := (joint_refused hd s.net hreach p hsole c u hm hc).1
    change 50000 ≤ _ at h1
    omega
  · have h1 := joint_closed hd s.net hreach p hsole c hm hc
    change 100000 ≤ _ at h1
    omega

/-! ### The counterexamples -/

/-- Everybody in the log is `p`. -/
def onlyB (p : Bytes) (log : List Obs) : Bool :=
  log.all fun
    | .admitted c _ => c.peer == p
    | _ => true

theorem sole_of (p : Bytes) (log : List Obs) (h : onlyB p log = true) : Sole log p := by
  intro c _ _ c' ⟨t, hm⟩ _
  have := List.all_eq_true.1 h _ hm
  simpa using this

def hp : Bytes := [1]
def hhome : MAddr := ⟨[10], [[80]]⟩
def hconn : Conn := ⟨hp, hhome, 0⟩
def hopts : Opts := { checkpoints := [⟨2, [2]⟩], batch := 2, delta := 5 }

theorem hopts_handshake : HonestHandshake hopts [7] honHs := by
  refine ⟨fun _ => 0, .ok ⟨1, 0, 0⟩, honNode, ⟨[3], 3⟩, honChain, rfl, Or.inl ⟨_, rfl⟩, honKeeps, ?_⟩
  intro k hk
  simp only [hopts, List.mem_singleton] at hk
  subst hk
  exact ⟨by decide, by decide, rfl⟩

theorem hopts_round : HonestRound [7] honRound :=
  ⟨honCodec, fun _ => 0, fun _ => .ok [0], fun _ _ => none, honNode, ⟨[3], 3⟩, honChain, rfl, honKeeps, fun _ => ⟨0, rfl⟩,
    fun _ _ => rfl, honFaithful, fun _ _ => Or.inl rfl⟩

/-- The connection breaks while the peer is asked for its chain. -/
private def brokenHs : HsEnv := { honHs with peerChainID := .error (wrapS .peerRPC .ctxCanceled) }

/-- It breaks while the peer is asked for the block at the checkpoint. -/
private def brokenCp : HsEnv := { honHs with ancestor := fun _ _ _ => .error (wrapS .peerRPC .ctxCanceled) }

/-- A peer connects; its connection breaks during a handshake; it comes back. -/
private def breaks (e : HsEnv) : List Joint.Label :=
  [.net (.knock hp hhome), .net (.secure 0), .net (.establish 0), .net (.note 0), .session hp 0 (.handshake e), .net (.hangUp hconn),
    .session hp 0 (.deliver 0), .net (.handle 0), .net (.note 0), .net (.close 0), .net (.knock hp hhome)]

/-- C134 fails: the connection with an honest peer breaks while it is asked for its chain in the handshake; the failure is taken for another
chain, and when the peer comes back it is refused. -/
theorem C134_chain_id_refuted (d : Spec.Decay) (hd : ∀ s, d 0 s = s) :
    ∃ p ls s c, Joint.run d .default hopts (Joint.init 0) ls = some s ∧
      (∀ k l, Joint.Label.session p k l ∈ ls → HonestLabel hopts [7] l ∨ ∃ h x, HonestHandshake hopts [7] h ∧ grave x = false ∧
        l = .handshake { h with peerChainID := .error x }) ∧
      (∀ c e, Joint.Label.gossip c e ∉ ls) ∧ Sole s.net.log p ∧ Obs.refused c 0 ∈ s.net.log ∧ c.peer = p := by
  have hd' : d = fun t s => if t = 0 then s else d t s := by
    funext t s
    split
    · rename_i h; rw [h, hd]
    · rfl
  rw [hd']
  refine ⟨hp, breaks brokenHs, _, ⟨hp, hhome, 1⟩, rfl, ?_, by simp [breaks], sole_of _ _ rfl, .head _, rfl⟩
  intro k l hm
  simp only [breaks, List.mem_cons, Joint.Label.session.injEq, reduceCtorEq, false_or, List.not_mem_nil, or_false] at hm
  rcases hm with ⟨_, _, rfl⟩ | ⟨_, _, rfl⟩
  · exact Or.inr ⟨honHs, _, hopts_handshake, rfl, rfl⟩
  · exact Or.inl trivial

/-- The same with a question about a checkpoint. -/
theorem C134_checkpoint_refuted (d : Spec.Decay) (hd : ∀ s, d 0 s = s) :
    ∃ p ls s c, Joint.run d .default hopts (Joint.init 0) ls = some s ∧
      (∀ k l, Joint.Label.session p k l ∈ ls → HonestLabel hopts [7] l ∨ ∃ h x, HonestHandshake hopts [7] h ∧ grave x = false ∧
        l = .handshake { h with ancestor := fun _ _ _ => .error x }) ∧
      (∀ c e, Joint.Label.gossip c e ∉ ls) ∧ Sole s.net.log p ∧ Obs.refused c 0 ∈ s.net.log ∧ c.peer = p := by
  have hd' : d = fun t s => if t = 0 then s else d t s := by
    funext t s
    split
    · rename_i h; rw [h, hd]
    · rfl
  rw [hd']
  refine ⟨hp, breaks brokenCp, _, ⟨hp, hhome, 1⟩, rfl, ?_, by simp [breaks], sole_of _ _ rfl, .head _, rfl⟩
  intro k l hm
  simp only [breaks, List.mem_cons, Joint.Label.session.injEq, reduceCtorEq, false_or, List.not_mem_nil, or_false] at hm
  rcases hm with ⟨_, _, rfl⟩ | ⟨_, _, rfl⟩
  · exact Or.inr ⟨honHs, _, hopts_handshake, rfl, rfl⟩
  · exact Or.inl trivial

/-- No time has passed. -/
private def Still (s : Enforce.State) : Prop := s.now = 0 ∧ ∀ ip r, s.eh.scores.get ip = some r → r.lastUpdate = 0

private theorem handle_still (hd : ∀ s, d 0 s = s) (h : ErrHandler) (hs : ∀ ip r, h.scores.get ip = some r → r.lastUpdate = 0) (e : Event) :
    h.handle d eo 0 e = h.handle (fun _ s => s) eo 0 e ∧
      ∀ ip r, (h.handle d eo 0 e).1.scores.get ip = some r → r.lastUpdate = 0 := by
  have hdec : ∀ ip r, h.scores.get ip = some r → r.decay d 0 = r.decay (fun _ s => s) 0 := by
    intro ip r hr
    simp only [ScoreRec.decay, hs ip r hr]
    congr 1
    exact hd _
  have hset : ∀ (ip : Bytes) (x : ScoreRec), x.lastUpdate = 0 → ∀ ip' r, (h.scores.set ip x).get ip' = some r → r.lastUpdate = 0 := by
    intro ip x hx ip' r hr
    rw [GoMap.get_set] at hr
    split at hr
    · cases hr; exact hx
    · exact hs ip' r hr
  cases e with
  | perr p a e =>
    cases a with
    | none => exact ⟨rfl, hs⟩
    | some a =>
      simp only [ErrHandler.handle, ErrHandler.handleError]
      cases hg : h.scores.get a.ip with
      | none => exact ⟨rfl, hset _ _ rfl⟩
      | some r => exact ⟨by simp only [hdec _ r hg], hset _ _ rfl⟩
  | canConnect a =>
    simp only [ErrHandler.handle, ErrHandler.handleCanConnect]
    cases hg : h.scores.get a.ip with
    | none => exact ⟨rfl, hs⟩
    | some r => exact ⟨by simp only [hdec _ r hg], hset _ _ rfl⟩
  | getScore a =>
    simp only [ErrHandler.handle, ErrHandler.handleGetScore]
    cases hg : h.scores.get a.ip with
    | none => exact ⟨rfl, hs⟩
    | some r => exact ⟨by simp only [hdec _ r hg], hset _ _ rfl⟩

def isTick : Joint.Label → Bool
  | .net (.tick _) => true
  | _ => false

private theorem step_still (hd : ∀ s, d 0 s = s) (s : Enforce.State) (hs : Still s) (l : Enforce.Label) :
    Enforce.step d eo s l = Enforce.step (fun _ s => s) eo s l := by
  obtain ⟨h0, h1⟩ := hs
  have key := fun e => (handle_still (eo := eo) hd s.eh h1 e).1
  cases l <;> simp only [Enforce.step, Enforce.tell, h0, key]

private theorem still_step (hd : ∀ s, d 0 s = s) (s s' : Enforce.State) (hs : Still s) (l : Enforce.Label) (hl : ∀ n, l ≠ .tick n)
    (h : Enforce.step d eo s l = some s') : Still s' := by
  obtain ⟨h0, h1⟩ := hs
  have key := fun e => (handle_still (eo := eo) hd s.eh h1 e).2
  cases Enforce.tr_of_step s s' l h with
  | tick n => exact absurd rfl (hl n)
  | note => exact ⟨h0, h1⟩
  | establish => exact ⟨h0, h1⟩
  | report => exact ⟨h0, h1⟩
  | ignore => exact ⟨h0, h1⟩
  | close => exact ⟨h0, h1⟩
  | hangUp => exact ⟨h0, h1⟩
  | knockIn => exact ⟨h0, by simpa only [h0] using key _⟩
  | knockOut => exact ⟨h0, by simpa only [h0] using key _⟩
  | secureIn => exact ⟨h0, by simpa only [h0] using key _⟩
  | secureOut => exact ⟨h0, by simpa only [h0] using key _⟩
  | charge => exact ⟨h0, by simpa only [h0] using key _⟩
  | query => exact ⟨h0, by simpa only [h0] using key _⟩

/-- While no time passes, it does not matter how scores decay. -/
theorem run_still (d : Spec.Decay) (hd : ∀ s, d 0 s = s) (ls : List Joint.Label) (hl : ls.all (fun l => !isTick l) = true) :
    Joint.run d eo o (Joint.init 0) ls = Joint.run (fun _ s => s) eo o (Joint.init 0) ls := by
  have key : ∀ (ls : List Joint.Label) (s : Joint.State), Still s.net → ls.all (fun l => !isTick l) = true →
      Joint.run d eo o s ls = Joint.run (fun _ s => s) eo o s ls := by
    intro ls
    induction ls with
    | nil => intros; rfl
    | cons l ls ih =>
      intro s hs hl
      simp only [List.all_cons, Bool.and_eq_true, Bool.not_eq_true'] at hl
      have e1 : Joint.step d eo o s l = Joint.step (fun _ s => s) eo o s l := by
        simp only [Joint.step, step_still hd s.net hs]
      simp only [Joint.run, ← e1]
      cases hst : Joint.step d eo o s l with
      | none => rfl
      | some s' =>
        refine ih s' ?_ hl.2
        cases Joint.jtr_of_step s s' l hst with
        | net l n hr h => exact still_step hd s.net n hs l (fun m hm => by rw [hm] at hl; simp [isTick] at hl) h
        | gossip c e n h => exact still_step hd s.net n hs _ (fun _ hm => (by cases hm)) h
        | quiet => exact hs
        | tells k l c st st' e n _ _ _ _ h => exact still_step hd s.net n hs _ (fun _ hm => (by cases hm)) h
  exact key ls _ ⟨rfl, by simp [Joint.init, Enforce.init, ErrHandler.new]⟩ hl

/-- Our own chain service does not answer while the blocks of a round are applied. -/
private def ownFailure : SyncEnv := { honRound with apply := fun _ _ => some (wrapS .localRPC (.other 0)) }

/-- A round that fails in this way, and the report of it. -/
private def failing : List Joint.Label :=
  [.session hp 0 (.round ownFailure), .session hp 0 .report, .net (.handle 0), .session hp 0 .sleepTimer]

/-- Twenty of them. -/
private def twenty : List Joint.Label :=
  [.net (.knock hp hhome), .net (.secure 0), .net (.establish 0), .net (.note 0), .session hp 0 (.handshake honHs)] ++
    (List.replicate 20 failing).flatten ++ [.net (.close 0)]

/-- C134 fails: our own chain service is out of order; after twenty rounds, which take twenty seconds, an honest peer is disconnected for it.
Nothing in the connection or on the side of the peer has failed. (In the example no time passes; the bound of `C134_few_partial` is met exactly.) -/
theorem C134_own_node_refuted (d : Spec.Decay) (hd : ∀ s, d 0 s = s) :
    ∃ p ls s c, Joint.run d .default hopts (Joint.init 0) ls = some s ∧
      (∀ k l, Joint.Label.session p k l ∈ ls → HonestLabel hopts [7] l ∨ ∃ h x, HonestRound [7] h ∧ x.is .localRPC = true ∧
        l = .round { h with apply := fun _ _ => some x }) ∧
      (∀ c e, Joint.Label.gossip c e ∉ ls) ∧ Sole s.net.log p ∧ Obs.closed c ∈ s.net.log ∧ c.peer = p := by
  have hfacts : ((Joint.run (fun _ s => s) .default hopts (Joint.init 0) twenty).map fun s =>
      (onlyB hp s.net.log, decide (Obs.closed hconn ∈ s.net.log))) = some (true, true) := by decide +kernel
  rw [← run_still d hd twenty (by decide)] at hfacts
  obtain ⟨s, hr, hs⟩ := Option.map_eq_some_iff.1 hfacts
  simp only [Prod.mk.injEq, decide_eq_true_eq] at hs
  refine ⟨hp, twenty, s, hconn, hr, ?_, ?_, sole_of _ _ hs.1, hs.2, rfl⟩
  · intro k l hm
    simp only [twenty, failing, List.mem_append, List.mem_flatten, List.mem_replicate, List.mem_cons, Joint.Label.session.injEq, reduceCtorEq,
      false_or, List.not_mem_nil, or_false] at hm
    rcases hm with ⟨_, _, rfl⟩ | ⟨x, ⟨_, rfl⟩, hm⟩
    · exact Or.inl hopts_handshake
    · simp only [List.mem_cons, Joint.Label.session.injEq, reduceCtorEq, false_or, List.not_mem_nil, or_false] at hm
      rcases hm with ⟨_, _, rfl⟩ | ⟨_, _, rfl⟩ | ⟨_, _, rfl⟩
      · exact Or.inr ⟨honRound, _, hopts_round, rfl, rfl⟩
      · exact Or.inl trivial
      · exact Or.inl trivial
  · intro c e hm
    simp only [twenty, failing, List.mem_append, List.mem_flatten, List.mem_replicate, List.mem_cons, reduceCtorEq,
      false_or, List.not_mem_nil, or_false] at hm
    obtain ⟨x, ⟨_, rfl⟩, hm⟩ := hm
    simp at hm

/-! ### Examples -/

/-- An honest peer that connects, exchanges blocks, leaves and comes back (hypotheses of C133). -/
private def visit : List Joint.Label :=
  [.net (.knock hp hhome), .net (.secure 0), .net (.establish 0), .net (.note 0), .session hp 0 (.handshake honHs), .session hp 0 (.round honRound),
    .session hp 0 .sleepTimer, .session hp 0 (.round honRound), .net (.hangUp hconn), .net (.note 0), .session hp 0 .seeDone,
    .net (.knock hp hhome), .net (.secure 0), .net (.establish 0), .net (.note 0), .session hp 1 (.handshake honHs)]

example (d : Spec.Decay) (hd : d.NonIncreasing) : ∃ s, Joint.run d .default hopts (Joint.init 0) visit = some s ∧
    (∀ k l, Joint.Label.session hp k l ∈ visit → HonestLabel hopts [7] l) ∧ Sole s.net.log hp ∧ s.sess.length = 2 ∧
    ∀ u, Obs.refused ⟨hp, hhome, 1⟩ u ∉ s.net.log := by
  have hh : ∀ k l, Joint.Label.session hp k l ∈ visit → HonestLabel hopts [7] l := by
    intro k l hm
    simp only [visit, List.mem_cons, Joint.Label.session.injEq, reduceCtorEq, false_or, List.not_mem_nil, or_false] at hm
    rcases hm with ⟨_, _, rfl⟩ | ⟨_, _, rfl⟩ | ⟨_, _, rfl⟩ | ⟨_, _, rfl⟩ | ⟨_, _, rfl⟩ | ⟨_, _, rfl⟩
    · exact hopts_handshake
    · exact hopts_round
    · trivial
    · exact hopts_round
    · trivial
    · exact hopts_handshake
  exact ⟨_, rfl, hh, sole_of _ _ rfl, rfl, fun u =>
    C133_not_refused hd (by decide) (by decide) [7] hp 0 visit _ rfl hh (by simp [visit]) (sole_of _ _ rfl) _ rfl u⟩

private def once : List Joint.Label :=
  [.net (.knock hp hhome), .net (.secure 0), .net (.establish 0), .net (.note 0), .session hp 0 (.handshake honHs)] ++ failing

/-- One interrupted round (hypotheses of `C134_few_partial`). -/
example (d : Spec.Decay) (hd : d.NonIncreasing) : ∃ s bad,
    Joint.run d .default hopts (Joint.init 0) once = some s ∧ occurrences bad hp once = 1 ∧
    (∃ e a sc t, Obs.charged hconn e a sc t ∈ s.net.log) ∧ Obs.closed hconn ∉ s.net.log := by
  refine ⟨_, fun l => match l with | .round _ => true | _ => false, rfl, rfl, ⟨_, _, _, _, .head _⟩, ?_⟩
  refine (C134_few_partial hd (o := hopts) (by decide) (by decide) [7] hp 0 once _ rfl (fun l => match l with | .round _ => true | _ => false) ?_
    (by simp [once, failing]) (sole_of _ _ rfl) hconn rfl).2 (by decide)
  intro k l hm
  simp only [once, failing, List.cons_append, List.nil_append, List.mem_cons, Joint.Label.session.injEq, reduceCtorEq, false_or, List.not_mem_nil,
    or_false] at hm
  rcases hm with ⟨_, _, rfl⟩ | ⟨_, _, rfl⟩ | ⟨_, _, rfl⟩ | ⟨_, _, rfl⟩
  · exact Or.inl hopts_handshake
  · exact Or.inr ⟨rfl, honRound, hopts_round, rfl, Or.inl rfl, fun _ => Or.inl rfl, fun _ _ => Or.inl rfl, fun _ _ _ => Or.inl rfl,
      fun _ _ => Or.inr ⟨_, rfl, rfl⟩⟩
  · exact Or.inl trivial
  · exact Or.inl trivial

/-- A handshake in which our own chain does not answer. -/
example : HsInterrupted hopts [7] { honHs with localChainID := .error (wrapS .localRPC (.other 0)) } ∧
    (handshake hopts { honHs with localChainID := .error (wrapS .localRPC (.other 0)) }).err = some (wrapS .localRPC (.other 0)) :=
  ⟨⟨honHs, hopts_handshake, rfl, Or.inr ⟨_, rfl, rfl⟩, rfl, Or.inl rfl, rfl⟩, rfl⟩

end KP2P

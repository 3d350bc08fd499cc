import Verif.Model.PeerRPC
import Mathlib.Tactic.FinCases
/-!
# C44, C45, C67: calls between peers
-/

namespace KP2P
open KP2P.PeerRPC

/-! ### C44: block transfer -/

private theorem decodeAll_ok (c : Codec) (xs : List Bytes) (bs : List RawBlock) :
    decodeAll c xs = .ok bs ↔ List.Forall₂ (fun x b => c.unmarshal x = .ok b) xs bs := by
  induction xs generalizing bs with
  | nil => cases bs <;> simp [decodeAll]
  | cons x xs ih =>
    unfold decodeAll
    cases h : c.unmarshal x with
    | error e =>
      simp only [reduceCtorEq, false_iff]
      intro hf
      cases hf with
      | cons h1 _ => rw [h] at h1; cases h1
    | ok b =>
      cases h2 : decodeAll c xs with
      | error e =>
        simp only [reduceCtorEq, false_iff]
        intro hf
        cases hf with
        | cons _ h3 => have := (ih _).2 h3; rw [h2] at this; cases this
      | ok bs' =>
        have := (ih bs').1 h2
        constructor
        · intro e; cases e; exact .cons h this
        · intro hf
          cases hf with
          | cons h1 h3 =>
            rw [h] at h1; cases h1
            have := (ih _).2 h3; rw [h2] at this; cases this; rfl

private theorem decodeAll_err (c : Codec) (xs : List Bytes) (e : Err) (h : decodeAll c xs = .error e) :
    ∃ x ∈ xs, ∃ y, c.unmarshal x = .error y ∧ e = wrapS .deserialization y := by
  induction xs with
  | nil => cases h
  | cons x xs ih =>
    unfold decodeAll at h
    cases hx : c.unmarshal x with
    | error y => rw [hx] at h; cases h; exact ⟨x, List.mem_cons_self .., y, hx, rfl⟩
    | ok b =>
      rw [hx] at h
      cases h2 : decodeAll c xs with
      | error y =>
        rw [h2] at h; cases h
        obtain ⟨x', hm, y', h3, h4⟩ := ih h2
        exact ⟨x', List.mem_cons_of_mem _ hm, y', h3, h4⟩
      | ok bs => rw [h2] at h; cases h

private theorem forall₂_length {α β : Type} {R : α → β → Prop} {xs : List α} {ys : List β} (h : List.Forall₂ R xs ys) :
    xs.length = ys.length := by
  induction h with
  | nil => rfl
  | cons _ _ ih => simp [ih]

/-- C44. `GetBlocks` succeeds with `bs` iff the call succeeds, the number of encoded blocks equals the number asked for
(modulo 2^32) and each of them decodes to the block at its place. -/
theorem C44_exact (c : Codec) (call : Bytes → UInt64 → UInt32 → Ret (List Bytes)) (head : Bytes) (start : UInt64)
    (num : UInt32) (bs : List RawBlock) :
    getBlocks c call head start num = .ok bs ↔
      ∃ xs, call head start num = ⟨xs, none⟩ ∧ xs.length % 2 ^ 32 = num.toNat ∧ bs.length % 2 ^ 32 = num.toNat ∧
        List.Forall₂ (fun x b => c.unmarshal x = .ok b) xs bs := by
  have key : ∀ n : Nat, UInt32.ofNat n = num ↔ n % 2 ^ 32 = num.toNat := by
    intro n
    rw [← UInt32.toNat_inj, UInt32.toNat_ofNat']
  unfold getBlocks
  cases hc : call head start num with
  | mk v e =>
    cases e with
    | some e => simp
    | none =>
      dsimp only
      constructor
      · intro h
        split at h
        · cases h
        · rename_i hn
          have hl := (key _).1 (Classical.not_not.1 hn)
          have hf := (decodeAll_ok c v bs).1 h
          exact ⟨v, rfl, hl, by rw [← forall₂_length hf]; exact hl, hf⟩
      · rintro ⟨xs, hx, hl, _, hf⟩
        cases hx
        rw [if_neg (Classical.not_not.2 ((key _).2 hl))]
        exact (decodeAll_ok c v bs).2 hf

/-- C44. A list of the wrong length is refused as a peer error; a block that does not decode as a deserialization
error; nothing else is reported for a call that was answered. -/
theorem C44_errors (c : Codec) (call : Bytes → UInt64 → UInt32 → Ret (List Bytes)) (head : Bytes) (start : UInt64)
    (num : UInt32) (xs : List Bytes) (hc : call head start num = ⟨xs, none⟩) :
    (xs.length % 2 ^ 32 ≠ num.toNat → getBlocks c call head start num = .error (noteS .peerRPC)) ∧
    (xs.length % 2 ^ 32 = num.toNat → (∃ x ∈ xs, ∃ y, c.unmarshal x = .error y) →
      ∃ y, getBlocks c call head start num = .error (wrapS .deserialization y)) := by
  have key : UInt32.ofNat xs.length = num ↔ xs.length % 2 ^ 32 = num.toNat := by
    rw [← UInt32.toNat_inj, UInt32.toNat_ofNat']
  constructor
  · intro h
    unfold getBlocks
    rw [hc]; dsimp only
    rw [if_pos (fun h' => h (key.1 h'))]
  · rintro h ⟨x, hx, y, hy⟩
    unfold getBlocks
    rw [hc]; dsimp only
    rw [if_neg (Classical.not_not.2 (key.2 h))]
    cases hd : decodeAll c xs with
    | ok bs =>
      have hf := (decodeAll_ok c xs bs).1 hd
      have : ∀ {xs : List Bytes} {bs : List RawBlock}, List.Forall₂ (fun x b => c.unmarshal x = .ok b) xs bs →
          x ∉ xs := by
        intro xs bs hf
        induction hf with
        | nil => simp
        | cons h1 _ ih =>
          intro hm
          rcases List.mem_cons.1 hm with rfl | hm
          · rw [hy] at h1; cases h1
          · exact ih hm
      exact absurd hx (this hf)
    | error e =>
      obtain ⟨_, _, y', _, rfl⟩ := decodeAll_err c xs e hd
      exact ⟨y', rfl⟩

/-- The codec is faithful on a block: it encodes, and decoding gives the block back. -/
def Faithful (c : Codec) (b : RawBlock) : Prop := ∃ x, c.marshal (some b) = .ok x ∧ c.unmarshal x = .ok b

/-- C44. Asking an honest service whose block store has exactly the `num` requested blocks gives exactly those blocks, in
order. -/
theorem C44_honest (c : Codec) (l : Local) (remote : Err → Nat) (head : Bytes) (start : UInt64) (num : UInt32)
    (items : List Item) (bs : List RawBlock) (hl : l.byHeight head start num = .ok items)
    (hb : items.map Item.block = bs.map some) (hn : bs.length = num.toNat) (hf : ∀ b ∈ bs, Faithful c b) :
    getBlocks c (fun h s n => deliver remote [] (serveBlocks c l h s n)) head start num = .ok bs := by
  have key : ∀ (items : List Item) (bs : List RawBlock), items.map Item.block = bs.map some → (∀ b ∈ bs, Faithful c b) →
      ∃ xs, encodeAll c items = .ok xs ∧ List.Forall₂ (fun x b => c.unmarshal x = .ok b) xs bs := by
    intro items
    induction items with
    | nil =>
      intro bs hb _
      cases bs with
      | nil => exact ⟨[], rfl, .nil⟩
      | cons => simp at hb
    | cons i items ih =>
      intro bs hb hf
      cases bs with
      | nil => simp at hb
      | cons b bs =>
        simp only [List.map_cons, List.cons.injEq] at hb
        obtain ⟨xs, h1, h2⟩ := ih bs hb.2 fun b' hm => hf b' (List.mem_cons_of_mem _ hm)
        obtain ⟨x, h3, h4⟩ := hf b (List.mem_cons_self ..)
        refine ⟨x :: xs, ?_, .cons h4 h2⟩
        unfold encodeAll
        rw [hb.1, h3, h1]
  obtain ⟨xs, h1, h2⟩ := key items bs hb hf
  rw [C44_exact]
  refine ⟨xs, ?_, ?_, ?_, h2⟩
  · simp [serveBlocks, hl, h1, deliver]
  · rw [forall₂_length h2, hn]; exact Nat.mod_eq_of_lt num.toNat_lt
  · rw [hn]; exact Nat.mod_eq_of_lt num.toNat_lt

/-- C44. The other questions are answered faithfully too: the chain id, the head and the ancestor a client gets from an
honest service are those of the service's own node. -/
theorem C44_honest_answers (l : Local) (remote : Err → Nat) :
    (∀ id, l.chainID = .ok id → getChainID (deliver remote [] (serveChainID l)) = ⟨id, none⟩) ∧
    (∀ t, l.head = .ok (some t) → getHeadBlock (deliver remote ([], 0) (serveHeadBlock l)) = ⟨(t.id, t.height), none⟩) ∧
    (∀ parent height i, l.byHeight parent height 1 = .ok [i] →
      getAncestorBlockID (fun p h => deliver remote [] (serveAncestor l p h)) parent height = ⟨i.id, none⟩) := by
  refine ⟨?_, ?_, ?_⟩
  · intro id h; simp [serveChainID, h, deliver, getChainID]
  · intro t h; simp [serveHeadBlock, h, deliver, getHeadBlock]
  · intro p ht i h; simp [serveAncestor, h, deliver, getAncestorBlockID]

private def exBlock (n : UInt8) : RawBlock := ⟨some [n], some ⟨some [n - 1], n.toUInt64, 0, none⟩, [], []⟩

/-- A codec for three blocks. -/
private def exCodec : Codec :=
  { marshal := fun b => match b with
      | some b => .ok (str b.id)
      | none => .ok []
    unmarshal := fun x => match x with
      | [n] => .ok (exBlock n)
      | _ => .error (.other 1) }

private def exItems : List Item := [⟨[5], 5, some (exBlock 5)⟩, ⟨[6], 6, some (exBlock 6)⟩]

/- Two blocks pass from an honest service to a client. -/
example : getBlocks exCodec (fun h s n => deliver (fun _ => 0) []
    (serveBlocks exCodec ⟨.ok [1], .ok none, fun _ _ _ => .ok exItems⟩ h s n)) [9] 5 2 = .ok [exBlock 5, exBlock 6] :=
  C44_honest exCodec _ _ _ _ _ exItems _ rfl (by decide +kernel) (by decide +kernel) (by
    intro b hb
    fin_cases hb
    · exact ⟨[5], rfl, rfl⟩
    · exact ⟨[6], rfl, rfl⟩)

/-! ### C45: classification of failures -/

/-- The class a failed call must be reported with. -/
def callClass (e : Err) : Sentinel := if e.isDeadline then .peerRPCTimeout else .peerRPC

/-- C45. A failed call is reported as a time-out iff the deadline was exceeded, otherwise as a peer error, and as nothing
else; the same for all four calls. -/
theorem C45_class (e : Err) (s : Sentinel) :
    (∀ v x, (getChainID ⟨v, some e⟩).err = some x → (x.is s = true ↔ s = callClass e)) ∧
    (∀ v x, (getHeadBlock ⟨v, some e⟩).err = some x → (x.is s = true ↔ s = callClass e)) ∧
    (∀ call p h v x, call p h = ⟨v, some e⟩ → (getAncestorBlockID call p h).err = some x →
      (x.is s = true ↔ s = callClass e)) ∧
    (∀ c call a b n v x, call a b n = ⟨v, some e⟩ → getBlocks c call a b n = .error x →
      (x.is s = true ↔ s = callClass e)) := by
  have key : (callErr e).is s = true ↔ s = callClass e := by
    unfold callErr callClass
    split
    · simp only [Err.is_wrapS, decide_eq_true_eq]; exact eq_comm
    · simp only [Err.is_wrapS, decide_eq_true_eq]; exact eq_comm
  refine ⟨?_, ?_, ?_, ?_⟩
  · intro v x h; cases h; exact key
  · intro v x h; cases h; exact key
  · intro call p h v x hc hx
    unfold getAncestorBlockID at hx; rw [hc] at hx; cases hx; exact key
  · intro c call a b n v x hc hx
    unfold getBlocks at hx; rw [hc] at hx; cases hx; exact key

/-- C45. A failed call is reported as an error, a call that succeeds is not, for the three calls without further
checks. -/
theorem C45_fails_iff (e : Option Err) :
    (∀ v, (getChainID ⟨v, e⟩).err = none ↔ e = none) ∧
    (∀ v, (getHeadBlock ⟨v, e⟩).err = none ↔ e = none) ∧
    (∀ call p h v, call p h = ⟨v, e⟩ → ((getAncestorBlockID call p h).err = none ↔ e = none)) ∧
    (∀ c call a b n v x, call a b n = ⟨v, some x⟩ → ∃ y, getBlocks c call a b n = .error y) := by
  refine ⟨?_, ?_, ?_, ?_⟩
  · intro v; cases e <;> simp [getChainID]
  · intro v; cases e <;> simp [getHeadBlock]
  · intro call p h v hc; unfold getAncestorBlockID; rw [hc]; cases e <;> simp
  · intro c call a b n v x hc; unfold getBlocks; rw [hc]; exact ⟨_, rfl⟩

/- A wrapped deadline, and a cancellation of our own context (which is put on the peer). -/
example : callErr (.note .ctxDeadline) = wrapS .peerRPCTimeout (.note .ctxDeadline) := by decide +kernel
example : callErr .ctxCanceled = wrapS .peerRPC .ctxCanceled := by decide +kernel

/-! ### C67: how much a peer can ask for -/

/-- The claim: there is a bound, independent of the request, on the number of blocks the service sends
when a peer asks it for blocks. -/
def BoundedService (k : Nat) : Prop :=
  ∀ (c : Codec) (l : Local) (head : Bytes) (start : UInt64) (num : UInt32) (xs : List Bytes),
    serveBlocks c l head start num = .ok xs → xs.length ≤ k

/-- C67 refuted: for every bound that fits the request there is a block store and a request served with more blocks. -/
theorem C67_bounded_refuted (k : Nat) (hk : k + 1 < 2 ^ 32) : ¬ BoundedService k := by
  intro h
  let l : Local := ⟨.ok [], .ok none, fun _ _ n => .ok (List.replicate n.toNat ⟨[], 0, none⟩)⟩
  let c : Codec := ⟨fun _ => .ok [], fun _ => .error (.other 0)⟩
  have he : ∀ n : Nat, encodeAll c (List.replicate n ⟨[], 0, none⟩) = .ok (List.replicate n []) := by
    intro n
    induction n with
    | zero => rfl
    | succ n ih =>
      rw [List.replicate_succ, List.replicate_succ]
      conv => lhs; unfold encodeAll
      rw [ih]
  have hs : serveBlocks c l [] 0 (UInt32.ofNat (k + 1)) = .ok (List.replicate (k + 1) []) := by
    unfold serveBlocks
    show (match encodeAll c (List.replicate (UInt32.ofNat (k + 1)).toNat ⟨[], 0, none⟩) with
      | .error e => Served.err e | .ok xs => .ok xs) = _
    rw [he, UInt32.toNat_ofNat', Nat.mod_eq_of_lt hk]
  have := h c l [] 0 _ _ hs
  rw [List.length_replicate] at this
  omega

/-- C67 as far as it holds: the service sends one encoded block for each block item the block store returns for the very
request of the peer, and asks for nothing else. -/
theorem C67_as_asked_partial (c : Codec) (l : Local) (head : Bytes) (start : UInt64) (num : UInt32) (xs : List Bytes)
    (h : serveBlocks c l head start num = .ok xs) :
    ∃ items, l.byHeight head start num = .ok items ∧
      List.Forall₂ (fun i x => c.marshal i.block = .ok x) items xs := by
  unfold serveBlocks at h
  cases hi : l.byHeight head start num with
  | error e => rw [hi] at h; cases h
  | ok items =>
    rw [hi] at h; dsimp only at h
    refine ⟨items, rfl, ?_⟩
    cases he : encodeAll c items with
    | error e => rw [he] at h; cases h
    | ok ys =>
      rw [he] at h; cases h
      clear hi
      induction items generalizing xs with
      | nil => cases he; exact .nil
      | cons i items ih =>
        unfold encodeAll at he
        cases hm : c.marshal i.block with
        | error e => rw [hm] at he; cases he
        | ok x =>
          rw [hm] at he; dsimp only at he
          cases h2 : encodeAll c items with
          | error e => rw [h2] at he; cases he
          | ok xs' => rw [h2] at he; cases he; exact .cons hm (ih _ h2)

/- Two items are served as two encoded blocks. -/
example : serveBlocks exCodec ⟨.ok [1], .ok none, fun _ _ _ => .ok exItems⟩ [9] 5 2 = .ok [[5], [6]] := by
  decide +kernel

end KP2P

import Verif.Model.KoinosRPC
import Verif.Proof.PeerConn
/-!
# C46, C47: calls to the node's own chain and block store
-/

namespace KP2P
open KP2P.KoinosRPC
open KP2P.PeerRPC (Item)

namespace Spec

/-- The service replied `r` to `q`: the request encodes to a message of legal size, the queue delivers a reply, and the
reply decodes to `r`. -/
def Replied {Req Resp : Type} (w : Wire Req Resp) (q : Req) (r : Resp) : Prop :=
  ∃ data reply, w.marshal q = .ok data ∧ data.length ≤ 536870912 ∧ w.rpc data = .ok reply ∧ w.unmarshal reply = .ok r

/-- The ways an exchange can fail, with the reported error. -/
inductive NoReply {Req Resp : Type} (w : Wire Req Resp) (q : Req) : Err → Prop
  | encode (e : Err) : w.marshal q = .error e → NoReply w q (wrapS .serialization e)
  | size (data : Bytes) : w.marshal q = .ok data → 536870912 < data.length → NoReply w q (.other 0)
  | timeout (data : Bytes) (e : Err) : w.marshal q = .ok data → data.length ≤ 536870912 → w.rpc data = .error e →
      e.isDeadline = true → NoReply w q (wrapS .localRPCTimeout e)
  | transport (data : Bytes) (e : Err) : w.marshal q = .ok data → data.length ≤ 536870912 → w.rpc data = .error e →
      e.isDeadline = false → NoReply w q (wrapS .localRPC e)
  | decode (data reply : Bytes) (e : Err) : w.marshal q = .ok data → data.length ≤ 536870912 → w.rpc data = .ok reply →
      w.unmarshal reply = .error e → NoReply w q (wrapS .deserialization e)

/-- `s` is the class of the first error code the table knows. -/
def FirstRecognised (table : ErrorCode → Option Sentinel) (ds : Details) (s : Sentinel) : Prop :=
  ∃ pre c post, ds = pre ++ some c :: post ∧ table c = some s ∧ ∀ c', some c' ∈ pre → table c' = none

/-- No error code is known. -/
def NoneRecognised (table : ErrorCode → Option Sentinel) (ds : Details) : Prop :=
  ∀ c, some c ∈ ds → table c = none

/-- What a code means for a block. -/
def blockMeaning (c : ErrorCode) : Option Sentinel :=
  if c = .unknownPreviousBlock then some .unknownPreviousBlock
  else if c = .preIrreversibilityBlock then some .blockIrreversibility
  else if c = .blockStateError then some .blockState
  else none

/-- What a code means for a transaction. -/
def transactionMeaning (c : ErrorCode) : Option Sentinel :=
  if c = .invalidNonce then some .invalidNonce else none

end Spec
open Spec

private theorem exchange_ok {Req Resp : Type} (w : Wire Req Resp) (q : Req) (r : Resp) :
    exchange w q = .ok r ↔ Replied w q r := by
  unfold exchange Replied checkMessageSize maxMessageSize
  cases hm : w.marshal q with
  | error e => simp
  | ok data =>
    dsimp only
    by_cases hs : data.length > 536870912
    · rw [if_pos hs]
      constructor
      · intro h; cases h
      · rintro ⟨d, _, h1, h2, _⟩; cases h1; exact absurd h2 (by omega)
    · rw [if_neg hs]; dsimp only
      cases hr : w.rpc data with
      | error e =>
        constructor
        · intro h; cases h
        · rintro ⟨d, _, h1, _, h2, _⟩; cases h1; rw [hr] at h2; cases h2
      | ok reply =>
        dsimp only
        cases hu : w.unmarshal reply with
        | error e =>
          constructor
          · intro h; cases h
          · rintro ⟨d, _, h1, _, h2, h3⟩; cases h1; rw [hr] at h2; cases h2; rw [hu] at h3; cases h3
        | ok r' =>
          constructor
          · intro h; cases h; exact ⟨data, reply, rfl, by omega, hr, hu⟩
          · rintro ⟨d, _, h1, _, h2, h3⟩; cases h1; rw [hr] at h2; cases h2; rw [hu] at h3; cases h3; rfl

private theorem exchange_err {Req Resp : Type} (w : Wire Req Resp) (q : Req) (x : Err) :
    exchange w q = .error x ↔ NoReply w q x := by
  unfold exchange checkMessageSize maxMessageSize
  cases hm : w.marshal q with
  | error e =>
    constructor
    · intro h; cases h; exact .encode e hm
    · intro h
      cases h with
      | encode e' h => rw [hm] at h; cases h; rfl
      | _ => simp_all
  | ok data =>
    dsimp only
    by_cases hs : data.length > 536870912
    · rw [if_pos hs]
      constructor
      · intro h; cases h; exact .size data hm hs
      · intro h
        cases h with
        | size d h _ => rfl
        | encode _ h => rw [hm] at h; cases h
        | timeout d _ h h1 => rw [hm] at h; cases h; omega
        | transport d _ h h1 => rw [hm] at h; cases h; omega
        | decode d _ _ h h1 => rw [hm] at h; cases h; omega
    · rw [if_neg hs]; dsimp only
      cases hr : w.rpc data with
      | error e =>
        dsimp only
        cases hd : e.isDeadline with
        | true =>
          simp only [if_true]
          constructor
          · intro h; cases h; exact .timeout data e hm (by omega) hr hd
          · intro h
            cases h with
            | size d h _ => rw [hm] at h; cases h; omega
            | encode _ h => rw [hm] at h; cases h
            | timeout d _ h h1 h2 h3 => rw [hm] at h; cases h; rw [hr] at h2; cases h2; rfl
            | transport d _ h h1 h2 h3 => rw [hm] at h; cases h; rw [hr] at h2; cases h2; rw [hd] at h3; cases h3
            | decode d _ _ h h1 h2 => rw [hm] at h; cases h; rw [hr] at h2; cases h2
        | false =>
          simp only [Bool.false_eq_true, if_false]
          constructor
          · intro h; cases h; exact .transport data e hm (by omega) hr hd
          · intro h
            cases h with
            | size d h _ => rw [hm] at h; cases h; omega
            | encode _ h => rw [hm] at h; cases h
            | timeout d _ h h1 h2 h3 => rw [hm] at h; cases h; rw [hr] at h2; cases h2; rw [hd] at h3; cases h3
            | transport d _ h h1 h2 h3 => rw [hm] at h; cases h; rw [hr] at h2; cases h2; rfl
            | decode d _ _ h h1 h2 => rw [hm] at h; cases h; rw [hr] at h2; cases h2
      | ok reply =>
        dsimp only
        cases hu : w.unmarshal reply with
        | error e =>
          constructor
          · intro h; cases h; exact .decode data reply e hm (by omega) hr hu
          · intro h
            cases h with
            | size d h _ => rw [hm] at h; cases h; omega
            | encode _ h => rw [hm] at h; cases h
            | timeout d _ h h1 h2 h3 => rw [hm] at h; cases h; rw [hr] at h2; cases h2
            | transport d _ h h1 h2 h3 => rw [hm] at h; cases h; rw [hr] at h2; cases h2
            | decode d _ _ h h1 h2 h3 =>
              rw [hm] at h; cases h; rw [hr] at h2; cases h2; rw [hu] at h3; cases h3; rfl
        | ok r =>
          constructor
          · intro h; cases h
          · intro h
            cases h with
            | size d h _ => rw [hm] at h; cases h; omega
            | encode _ h => rw [hm] at h; cases h
            | timeout d _ h h1 h2 h3 => rw [hm] at h; cases h; rw [hr] at h2; cases h2
            | transport d _ h h1 h2 h3 => rw [hm] at h; cases h; rw [hr] at h2; cases h2
            | decode d _ _ h h1 h2 h3 =>
              rw [hm] at h; cases h; rw [hr] at h2; cases h2; rw [hu] at h3; cases h3

private theorem firstKnown_some (table : ErrorCode → Option Sentinel) (ds : Details) (s : Sentinel) :
    firstKnown table ds = some s ↔ FirstRecognised table ds s := by
  induction ds with
  | nil =>
    constructor
    · intro h; cases h
    · rintro ⟨pre, c, post, h, _⟩; cases pre <;> cases h
  | cons d ds ih =>
    cases d with
    | none =>
      unfold firstKnown
      rw [ih]
      constructor
      · rintro ⟨pre, c, post, h, h1, h2⟩
        exact ⟨none :: pre, c, post, by rw [h]; rfl, h1, fun c' hc => h2 c' (by simpa using hc)⟩
      · rintro ⟨pre, c, post, h, h1, h2⟩
        cases pre with
        | nil => cases h
        | cons d pre =>
          injection h with ha hb
          exact ⟨pre, c, post, hb, h1, fun c' hc => h2 c' (List.mem_cons_of_mem _ hc)⟩
    | some c0 =>
      unfold firstKnown
      cases ht : table c0 with
      | some s0 =>
        constructor
        · intro h; cases h; exact ⟨[], c0, ds, rfl, ht, by simp⟩
        · rintro ⟨pre, c, post, h, h1, h2⟩
          cases pre with
          | nil => cases h; rw [ht] at h1; exact h1
          | cons d pre =>
            injection h with ha hb
            have := h2 c0 (by rw [← ha]; exact List.mem_cons_self ..)
            rw [ht] at this; cases this
      | none =>
        rw [ih]
        constructor
        · rintro ⟨pre, c, post, h, h1, h2⟩
          refine ⟨some c0 :: pre, c, post, by rw [h]; rfl, h1, fun c' hc => ?_⟩
          rcases List.mem_cons.1 hc with hc | hc
          · cases hc; exact ht
          · exact h2 c' hc
        · rintro ⟨pre, c, post, h, h1, h2⟩
          cases pre with
          | nil => cases h; rw [ht] at h1; cases h1
          | cons d pre =>
            injection h with ha hb
            exact ⟨pre, c, post, hb, h1, fun c' hc => h2 c' (List.mem_cons_of_mem _ hc)⟩

private theorem firstKnown_none (table : ErrorCode → Option Sentinel) (ds : Details) :
    firstKnown table ds = none ↔ NoneRecognised table ds := by
  induction ds with
  | nil => simp [firstKnown, NoneRecognised]
  | cons d ds ih =>
    cases d with
    | none =>
      unfold firstKnown
      rw [ih]; simp [NoneRecognised]
    | some c0 =>
      unfold firstKnown
      cases ht : table c0 with
      | some s0 =>
        simp only [reduceCtorEq, false_iff]
        intro h
        have := h c0 (List.mem_cons_self ..)
        rw [ht] at this; cases this
      | none =>
        rw [ih]
        constructor
        · intro h c hc
          rcases List.mem_cons.1 hc with hc | hc
          · cases hc; exact ht
          · exact h c hc
        · exact fun h c hc => h c (List.mem_cons_of_mem _ hc)

private theorem block_table : blockErrorMap = blockMeaning := by
  funext c
  cases c <;> simp [blockErrorMap, blockMeaning]

private theorem transaction_table : transactionErrorMap = transactionMeaning := by
  funext c
  cases c <;> simp [transactionErrorMap, transactionMeaning]

/-! ### C46: chain verdicts -/

/-- C46. Submitting a block succeeds iff the chain answered with the block-submission response. -/
theorem C46_block_ok (w : Wire ChainReq ChainResp) (b : RawBlock) :
    applyBlock w b = none ↔ Replied w (.submitBlock b) .submitBlock := by
  rw [← exchange_ok]
  unfold applyBlock
  cases h : exchange w (.submitBlock b) with
  | error e => simp
  | ok r =>
    cases r with
    | error ds => dsimp only; cases firstKnown blockErrorMap ds <;> simp
    | _ => simp

/-- C46. The error of a refused block: the class of the first recognised code, else a local RPC error; without an
answer, the error of the failed exchange. -/
theorem C46_block_errors (w : Wire ChainReq ChainResp) (b : RawBlock) :
    (∀ ds s, Replied w (.submitBlock b) (.error ds) → FirstRecognised blockMeaning ds s →
      applyBlock w b = some (.sentinel s)) ∧
    (∀ ds, Replied w (.submitBlock b) (.error ds) → NoneRecognised blockMeaning ds →
      applyBlock w b = some (noteS .localRPC)) ∧
    (∀ r, Replied w (.submitBlock b) r → r ≠ .submitBlock → (∀ ds, r ≠ .error ds) →
      applyBlock w b = some (noteS .localRPC)) ∧
    (∀ x, NoReply w (.submitBlock b) x → applyBlock w b = some x) := by
  refine ⟨?_, ?_, ?_, ?_⟩
  · intro ds s h hf
    rw [← block_table, ← firstKnown_some] at hf
    unfold applyBlock; rw [(exchange_ok ..).2 h]; dsimp only; rw [hf]
  · intro ds h hf
    rw [← block_table, ← firstKnown_none] at hf
    unfold applyBlock; rw [(exchange_ok ..).2 h]; dsimp only; rw [hf]
  · intro r h h1 h2
    unfold applyBlock; rw [(exchange_ok ..).2 h]
    cases r with
    | submitBlock => exact absurd rfl h1
    | error ds => exact absurd rfl (h2 ds)
    | _ => rfl
  · intro x h
    unfold applyBlock; rw [(exchange_err ..).2 h]

/-- C46. The same for transactions. -/
theorem C46_transaction_ok (w : Wire ChainReq ChainResp) (t : Tx) :
    applyTransaction w t = none ↔ Replied w (.submitTransaction t true) .submitTransaction := by
  rw [← exchange_ok]
  unfold applyTransaction
  cases h : exchange w (.submitTransaction t true) with
  | error e => simp
  | ok r =>
    cases r with
    | error ds => dsimp only; cases firstKnown transactionErrorMap ds <;> simp
    | _ => simp

/-- C46. The error of a refused transaction. -/
theorem C46_transaction_errors (w : Wire ChainReq ChainResp) (t : Tx) :
    (∀ ds s, Replied w (.submitTransaction t true) (.error ds) → FirstRecognised transactionMeaning ds s →
      applyTransaction w t = some (.sentinel s)) ∧
    (∀ ds, Replied w (.submitTransaction t true) (.error ds) → NoneRecognised transactionMeaning ds →
      applyTransaction w t = some (noteS .localRPC)) ∧
    (∀ r, Replied w (.submitTransaction t true) r → r ≠ .submitTransaction → (∀ ds, r ≠ .error ds) →
      applyTransaction w t = some (noteS .localRPC)) ∧
    (∀ x, NoReply w (.submitTransaction t true) x → applyTransaction w t = some x) := by
  refine ⟨?_, ?_, ?_, ?_⟩
  · intro ds s h hf
    rw [← transaction_table, ← firstKnown_some] at hf
    unfold applyTransaction; rw [(exchange_ok ..).2 h]; dsimp only; rw [hf]
  · intro ds h hf
    rw [← transaction_table, ← firstKnown_none] at hf
    unfold applyTransaction; rw [(exchange_ok ..).2 h]; dsimp only; rw [hf]
  · intro r h h1 h2
    unfold applyTransaction; rw [(exchange_ok ..).2 h]
    cases r with
    | submitTransaction => exact absurd rfl h1
    | error ds => exact absurd rfl (h2 ds)
    | _ => rfl
  · intro x h
    unfold applyTransaction; rw [(exchange_err ..).2 h]

/-- C46. Every submission is answered or fails to be answered, and not both: the cases above are exhaustive and
exclusive. -/
theorem C46_exhaustive {Req Resp : Type} (w : Wire Req Resp) (q : Req) :
    ((∃ r, Replied w q r) ∧ ¬ ∃ x, NoReply w q x) ∨ ((∃ x, NoReply w q x) ∧ ¬ ∃ r, Replied w q r) := by
  cases h : exchange w q with
  | ok r =>
    refine .inl ⟨⟨r, (exchange_ok ..).1 h⟩, fun ⟨x, hx⟩ => ?_⟩
    rw [(exchange_err ..).2 hx] at h; cases h
  | error x =>
    refine .inr ⟨⟨x, (exchange_err ..).1 h⟩, fun ⟨r, hr⟩ => ?_⟩
    rw [(exchange_ok ..).2 hr] at h; cases h

/-- A chain that answers every submission with an error carrying the given details. -/
private def exWire (r : ChainResp) : Wire ChainReq ChainResp :=
  ⟨fun _ => .ok [1], fun _ => .ok [2], fun _ => .ok r⟩

private theorem exReplied (r : ChainResp) (q : ChainReq) : Replied (exWire r) q r :=
  ⟨[1], [2], rfl, by decide, rfl, rfl⟩

/- An unreadable detail and an unknown code come before the one that counts. -/
example (b : RawBlock) :
    applyBlock (exWire (.error [none, some (.other 7), some .blockStateError, some .unknownPreviousBlock])) b =
      some (.sentinel .blockState) :=
  (C46_block_errors _ b).1 _ _ (exReplied _ _)
    ⟨[none, some (.other 7)], .blockStateError, [some .unknownPreviousBlock], rfl, rfl, by
      intro c hc; simp at hc; subst hc; rfl⟩

/-! ### C47: local RPC calls -/

/-- C47. Each call returns a value iff the service replied with the variant asked for, and it is the value of that
reply. -/
theorem C47_ok_iff (w : Wire ChainReq ChainResp) (v : Wire StoreReq StoreResp) :
    (∀ h, getHeadBlock w = .ok h ↔ Replied w .getHeadInfo (.getHeadInfo h)) ∧
    (∀ id, getChainID w = .ok id ↔ Replied w .getChainId (.getChainId id)) ∧
    (∀ hs l, getForkHeads w = .ok (hs, l) ↔ Replied w .getForkHeads (.getForkHeads hs l)) ∧
    (∀ ids items, getBlocksByID v ids = .ok items ↔
      Replied v (.getBlocksById ids true false) (.getBlocksById items)) ∧
    (∀ head start num items, getBlocksByHeight v head start num = .ok items ↔
      Replied v (.getBlocksByHeight head start num true false) (.getBlocksByHeight items)) := by
  refine ⟨?_, ?_, ?_, ?_, ?_⟩
  · intro h
    rw [← exchange_ok]; unfold getHeadBlock
    cases exchange w .getHeadInfo with
    | error e => simp
    | ok r => cases r <;> simp
  · intro h
    rw [← exchange_ok]; unfold getChainID
    cases exchange w .getChainId with
    | error e => simp
    | ok r => cases r <;> simp
  · intro hs l
    rw [← exchange_ok]; unfold getForkHeads
    cases exchange w .getForkHeads with
    | error e => simp
    | ok r => cases r <;> simp
  · intro ids items
    rw [← exchange_ok]; unfold getBlocksByID
    cases exchange v (.getBlocksById ids true false) with
    | error e => simp
    | ok r => cases r <;> simp
  · intro a b c items
    rw [← exchange_ok]; unfold getBlocksByHeight
    cases exchange v (.getBlocksByHeight a b c true false) with
    | error e => simp
    | ok r => cases r <;> simp

/-- C47. A failing call reports the error of the failed exchange, or a local RPC error for a reply of another kind. -/
theorem C47_errors (w : Wire ChainReq ChainResp) (v : Wire StoreReq StoreResp) (x : Err) :
    (getHeadBlock w = .error x → NoReply w .getHeadInfo x ∨ x = noteS .localRPC) ∧
    (getChainID w = .error x → NoReply w .getChainId x ∨ x = noteS .localRPC) ∧
    (getForkHeads w = .error x → NoReply w .getForkHeads x ∨ x = noteS .localRPC) ∧
    (∀ ids, getBlocksByID v ids = .error x → NoReply v (.getBlocksById ids true false) x ∨ x = noteS .localRPC) ∧
    (∀ head start num, getBlocksByHeight v head start num = .error x →
      NoReply v (.getBlocksByHeight head start num true false) x ∨ x = noteS .localRPC) := by
  refine ⟨?_, ?_, ?_, ?_, ?_⟩
  · intro h
    unfold getHeadBlock at h
    cases he : exchange w .getHeadInfo with
    | error e => rw [he] at h; cases h; exact .inl ((exchange_err ..).1 he)
    | ok r => rw [he] at h; cases r <;> (cases h; try exact .inr rfl)
  · intro h
    unfold getChainID at h
    cases he : exchange w .getChainId with
    | error e => rw [he] at h; cases h; exact .inl ((exchange_err ..).1 he)
    | ok r => rw [he] at h; cases r <;> (cases h; try exact .inr rfl)
  · intro h
    unfold getForkHeads at h
    cases he : exchange w .getForkHeads with
    | error e => rw [he] at h; cases h; exact .inl ((exchange_err ..).1 he)
    | ok r => rw [he] at h; cases r <;> (cases h; try exact .inr rfl)
  · intro ids h
    unfold getBlocksByID at h
    cases he : exchange v (.getBlocksById ids true false) with
    | error e => rw [he] at h; cases h; exact .inl ((exchange_err ..).1 he)
    | ok r => rw [he] at h; cases r <;> (cases h; try exact .inr rfl)
  · intro a b c h
    unfold getBlocksByHeight at h
    cases he : exchange v (.getBlocksByHeight a b c true false) with
    | error e => rw [he] at h; cases h; exact .inl ((exchange_err ..).1 he)
    | ok r => rw [he] at h; cases r <;> (cases h; try exact .inr rfl)

/-- C47. The two probes succeed iff the service replied at all, even with an error reply. -/
theorem C47_probes (w : Wire ChainReq ChainResp) (v : Wire StoreReq StoreResp) :
    (isConnectedToChain w = .ok () ↔ ∃ r, Replied w .reserved r) ∧
    (isConnectedToBlockStore v = .ok () ↔ ∃ r, Replied v .reserved r) ∧
    (∀ x, isConnectedToChain w = .error x ↔ NoReply w .reserved x) ∧
    (∀ x, isConnectedToBlockStore v = .error x ↔ NoReply v .reserved x) := by
  refine ⟨?_, ?_, ?_, ?_⟩
  · constructor
    · intro h
      unfold isConnectedToChain at h
      cases he : exchange w .reserved with
      | error e => rw [he] at h; cases h
      | ok r => exact ⟨r, (exchange_ok ..).1 he⟩
    · rintro ⟨r, hr⟩; unfold isConnectedToChain; rw [(exchange_ok ..).2 hr]
  · constructor
    · intro h
      unfold isConnectedToBlockStore at h
      cases he : exchange v .reserved with
      | error e => rw [he] at h; cases h
      | ok r => exact ⟨r, (exchange_ok ..).1 he⟩
    · rintro ⟨r, hr⟩; unfold isConnectedToBlockStore; rw [(exchange_ok ..).2 hr]
  · intro x
    rw [← exchange_err]; unfold isConnectedToChain
    cases exchange w .reserved <;> simp
  · intro x
    rw [← exchange_err]; unfold isConnectedToBlockStore
    cases exchange v .reserved <;> simp

/-- The documented classes of a failed exchange. -/
def exchangeClasses : List Sentinel := [.serialization, .localRPCTimeout, .localRPC, .deserialization]

/-- The claim: every failed exchange is reported with a documented class. -/
def Classified {Req Resp : Type} (w : Wire Req Resp) (q : Req) : Prop :=
  ∀ x, NoReply w q x → ∃ s ∈ exchangeClasses, x.is s = true

/-- C47 refuted in the class of the error: an oversized message is refused with an error of no class at all. -/
theorem C47_class_refuted {Req Resp : Type} (w : Wire Req Resp) (q : Req) (data : Bytes) (hm : w.marshal q = .ok data)
    (hs : 536870912 < data.length) : ¬ Classified w q ∧ ∀ s, (Err.other 0).is s = false :=
  ⟨fun h => (h _ (.size data hm hs)).elim (fun _ h => Bool.noConfusion h.2), fun _ => rfl⟩

/-- C47 as far as it holds: messages of legal size are always refused with a documented class, exactly one. -/
theorem C47_class_partial {Req Resp : Type} (w : Wire Req Resp) (q : Req)
    (hs : ∀ data, w.marshal q = .ok data → data.length ≤ 536870912) :
    Classified w q ∧ ∀ x s s', NoReply w q x → x.is s = true → x.is s' = true → s = s' := by
  refine ⟨fun x h => ?_, fun x s s' _ h h' => Err.is_unique h h'⟩
  cases h with
  | encode e _ => exact ⟨.serialization, by decide, rfl⟩
  | size d h1 h2 => exact absurd (hs d h1) (by omega)
  | timeout => exact ⟨.localRPCTimeout, by decide, rfl⟩
  | transport => exact ⟨.localRPC, by decide, rfl⟩
  | decode => exact ⟨.deserialization, by decide, rfl⟩

/- Such a message exists: the refutation is not about nothing. -/
example : ∃ w : Wire ChainReq ChainResp, ¬ Classified w .getChainId :=
  ⟨⟨fun _ => .ok (List.replicate 536870913 0), fun _ => .ok [], fun _ => .ok .other⟩,
    (C47_class_refuted _ _ (List.replicate 536870913 0) rfl (by rw [List.length_replicate]; omega)).1⟩

/- A wire with legal sizes. -/
example : Classified (exWire .other) .getForkHeads :=
  (C47_class_partial _ _ (by intro d h; cases h; decide)).1

example : getChainID (exWire (.getChainId [3])) = .ok [3] := ((C47_ok_iff _ ⟨fun _ => .ok [], fun _ => .ok [],
  fun _ => .ok .other⟩).2.1 _).2 (exReplied _ _)

end KP2P

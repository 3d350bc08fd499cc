import Verif.Model.Config
import Mathlib.Data.Nat.Digits.Defs
/-!
# C58, C70: command-line options
-/

namespace KP2P
open KP2P.Config
open KP2P.PeerConn (Checkpoint)

namespace Spec

/-- `s` is a decimal numeral. -/
def Numeral (s : Bytes) : Prop := s ≠ [] ∧ ∀ c ∈ s, 48 ≤ c.toNat ∧ c.toNat ≤ 57

/-- The number a decimal numeral denotes. -/
def numeralValue (s : Bytes) : Nat := Nat.ofDigits 10 (s.reverse.map fun c => c.toNat - 48)

/-- `c` is the hexadecimal digit with value `v`. -/
def HexDigit (c : UInt8) (v : Nat) : Prop :=
  (48 ≤ c.toNat ∧ c.toNat ≤ 57 ∧ v + 48 = c.toNat) ∨ (97 ≤ c.toNat ∧ c.toNat ≤ 102 ∧ v + 87 = c.toNat) ∨
  (65 ≤ c.toNat ∧ c.toNat ≤ 70 ∧ v + 55 = c.toNat)

/-- `s` spells the byte string `b` in hexadecimal. -/
inductive Spells : Bytes → Bytes → Prop
  | nil : Spells [] []
  | cons {h l b : UInt8} {v w : Nat} {s bs : Bytes} : HexDigit h v → HexDigit l w → b.toNat = 16 * v + w → Spells s bs →
      Spells (h :: l :: s) (b :: bs)

/-- A well-formed checkpoint option and its meaning: `height:id` with a decimal height of 64 bits and a hexadecimal id. -/
def Means (opt : Bytes) (c : Checkpoint) : Prop :=
  ∃ h id, opt = h ++ 58 :: id ∧ Numeral h ∧ numeralValue h = c.height.toNat ∧ Spells id c.id

end Spec
open Spec

private theorem digit_iff (c : UInt8) : (48 ≤ c ∧ c ≤ 57) ↔ 48 ≤ c.toNat ∧ c.toNat ≤ 57 := by
  rw [UInt8.le_iff_toNat_le, UInt8.le_iff_toNat_le]; rfl

private theorem ofDigits_snoc (s : Bytes) (c : UInt8) :
    numeralValue (c :: s) = (c.toNat - 48) * 10 ^ s.length + numeralValue s := by
  unfold numeralValue
  rw [List.reverse_cons, List.map_append, Nat.ofDigits_append]
  simp [Nat.ofDigits_singleton]
  rw [Nat.mul_comm]; omega

/-- Digits are read as their value, as long as it fits. -/
private theorem parseDigits_ok : ∀ (s : Bytes) (n : Nat), (∀ c ∈ s, 48 ≤ c.toNat ∧ c.toNat ≤ 57) →
    n * 10 ^ s.length + numeralValue s < 18446744073709551616 →
    parseDigits n s = (n * 10 ^ s.length + numeralValue s, true) := by
  intro s
  induction s with
  | nil => intro n _ _; simp [parseDigits, numeralValue]
  | cons c s ih =>
    intro n hd hv
    have hc := hd c (List.mem_cons_self ..)
    rw [ofDigits_snoc, List.length_cons, Nat.pow_succ] at hv ⊢
    have hp : 0 < 10 ^ s.length := Nat.pow_pos (by decide)
    have e : n * (10 ^ s.length * 10) + ((c.toNat - 48) * 10 ^ s.length + numeralValue s) =
        (n * 10 + (c.toNat - 48)) * 10 ^ s.length + numeralValue s := by
      rw [Nat.add_mul, ← Nat.add_assoc, Nat.mul_comm (10 ^ s.length) 10, Nat.mul_assoc]
    rw [e] at hv ⊢
    unfold parseDigits
    rw [if_pos ((digit_iff c).2 hc)]
    dsimp only
    have : n * 10 + (c.toNat - 48) ≤ (n * 10 + (c.toNat - 48)) * 10 ^ s.length := Nat.le_mul_of_pos_right _ hp
    rw [if_neg (by omega), ih _ (fun x hx => hd x (List.mem_cons_of_mem _ hx)) hv]

/-- Too large numerals are cut to 2^64-1. -/
private theorem parseDigits_big : ∀ (s : Bytes) (n : Nat), (∀ c ∈ s, 48 ≤ c.toNat ∧ c.toNat ≤ 57) →
    n < 18446744073709551616 → 18446744073709551616 ≤ n * 10 ^ s.length + numeralValue s →
    parseDigits n s = (18446744073709551615, false) := by
  intro s
  induction s with
  | nil => intro n _ hn hv; simp [numeralValue] at hv; omega
  | cons c s ih =>
    intro n hd hn hv
    have hc := hd c (List.mem_cons_self ..)
    rw [ofDigits_snoc, List.length_cons, Nat.pow_succ] at hv
    have e : n * (10 ^ s.length * 10) + ((c.toNat - 48) * 10 ^ s.length + numeralValue s) =
        (n * 10 + (c.toNat - 48)) * 10 ^ s.length + numeralValue s := by
      rw [Nat.add_mul, ← Nat.add_assoc, Nat.mul_comm (10 ^ s.length) 10, Nat.mul_assoc]
    rw [e] at hv
    unfold parseDigits
    rw [if_pos ((digit_iff c).2 hc)]
    dsimp only
    split
    · rfl
    · exact ih _ (fun x hx => hd x (List.mem_cons_of_mem _ hx)) (by omega) hv

private theorem parseDigits_bad : ∀ (s : Bytes) (n : Nat), (¬ ∀ c ∈ s, 48 ≤ c.toNat ∧ c.toNat ≤ 57) →
    parseDigits n s = (0, false) ∨ parseDigits n s = (18446744073709551615, false) := by
  intro s
  induction s with
  | nil => intro n h; exact absurd (fun c hc => absurd hc (by simp)) h
  | cons c s ih =>
    intro n h
    unfold parseDigits
    by_cases hc : 48 ≤ c ∧ c ≤ 57
    · rw [if_pos hc]
      dsimp only
      split
      · exact .inr rfl
      · refine ih _ fun hs => h fun x hx => ?_
        rcases List.mem_cons.1 hx with rfl | hx
        · exact (digit_iff x).1 hc
        · exact hs x hx
    · rw [if_neg hc]; exact .inl rfl

/-- Decimal heights are read exactly. -/
theorem parseUint_ok (s : Bytes) (hs : Numeral s) (hv : numeralValue s < 18446744073709551616) :
    parseUint s = (UInt64.ofNat (numeralValue s), true) := by
  unfold parseUint
  rw [if_neg hs.1, parseDigits_ok s 0 hs.2 (by omega)]
  simp

/-- Everything else is read as 0 or as 2^64-1, with an error. -/
theorem parseUint_bad (s : Bytes) (h : ¬ (Numeral s ∧ numeralValue s < 18446744073709551616)) :
    (parseUint s).2 = false ∧ ((parseUint s).1 = 0 ∨ (parseUint s).1 = 18446744073709551615) := by
  unfold parseUint
  by_cases he : s = []
  · rw [if_pos he]; exact ⟨rfl, .inl rfl⟩
  · rw [if_neg he]
    dsimp only
    by_cases hd : ∀ c ∈ s, 48 ≤ c.toNat ∧ c.toNat ≤ 57
    · have hv : 18446744073709551616 ≤ numeralValue s := by
        by_contra hc
        exact h ⟨⟨he, hd⟩, by omega⟩
      rw [parseDigits_big s 0 hd (by decide) (by omega)]
      exact ⟨rfl, .inr rfl⟩
    · rcases parseDigits_bad s 0 hd with e | e
      · rw [e]; exact ⟨rfl, .inl rfl⟩
      · rw [e]; exact ⟨rfl, .inr rfl⟩

private theorem hexVal_iff : ∀ (c : UInt8) (v : UInt8), hexVal c = some v ↔ HexDigit c v.toNat := by
  intro c v
  unfold hexVal HexDigit
  have hc := c.toNat_lt
  have hv := v.toNat_lt
  by_cases h1 : 48 ≤ c ∧ c ≤ 57
  · rw [if_pos h1]
    have h1' := (digit_iff c).1 h1
    have e : (c - 48).toNat = c.toNat - 48 := by
      rw [UInt8.toNat_sub_of_le _ _ h1.1]; rfl
    rw [Option.some.injEq, ← UInt8.toNat_inj, e]
    omega
  · rw [if_neg h1]
    have h1' : ¬ (48 ≤ c.toNat ∧ c.toNat ≤ 57) := fun h => h1 ((digit_iff c).2 h)
    have k2 : (97 ≤ c ∧ c ≤ 102) ↔ 97 ≤ c.toNat ∧ c.toNat ≤ 102 := by
      rw [UInt8.le_iff_toNat_le, UInt8.le_iff_toNat_le]; rfl
    by_cases h2 : 97 ≤ c ∧ c ≤ 102
    · rw [if_pos h2]
      have h2' := k2.1 h2
      have e : (c - 97 + 10).toNat = c.toNat - 87 := by
        rw [UInt8.toNat_add, UInt8.toNat_sub_of_le _ _ h2.1]
        show (c.toNat - 97 + 10) % 256 = c.toNat - 87
        omega
      rw [Option.some.injEq, ← UInt8.toNat_inj, e]
      omega
    · rw [if_neg h2]
      have h2' : ¬ (97 ≤ c.toNat ∧ c.toNat ≤ 102) := fun h => h2 (k2.2 h)
      have k3 : (65 ≤ c ∧ c ≤ 70) ↔ 65 ≤ c.toNat ∧ c.toNat ≤ 70 := by
        rw [UInt8.le_iff_toNat_le, UInt8.le_iff_toNat_le]; rfl
      by_cases h3 : 65 ≤ c ∧ c ≤ 70
      · rw [if_pos h3]
        have h3' := k3.1 h3
        have e : (c - 65 + 10).toNat = c.toNat - 55 := by
          rw [UInt8.toNat_add, UInt8.toNat_sub_of_le _ _ h3.1]
          show (c.toNat - 65 + 10) % 256 = c.toNat - 55
          omega
        rw [Option.some.injEq, ← UInt8.toNat_inj, e]
        omega
      · rw [if_neg h3]
        have h3' : ¬ (65 ≤ c.toNat ∧ c.toNat ≤ 70) := fun h => h3 (k3.2 h)
        constructor
        · intro h; cases h
        · intro h; omega

private theorem nibbles : ∀ x y : UInt8, x.toNat < 16 → y.toNat < 16 → (x <<< 4 ||| y).toNat = 16 * x.toNat + y.toNat := by
  have key : ∀ x y : Fin 16, (UInt8.ofNat x.1 <<< 4 ||| UInt8.ofNat y.1).toNat = 16 * x.1 + y.1 := by decide +kernel
  intro x y hx hy
  have := key ⟨x.toNat, hx⟩ ⟨y.toNat, hy⟩
  simpa using this

private theorem hexDigit_lt {c : UInt8} {v : Nat} (h : HexDigit c v) : v < 16 := by
  unfold HexDigit at h; omega

/-- A hexadecimal id is read exactly; nothing else is read without error. -/
theorem hexDecode_iff (s b : Bytes) : hexDecode s = (b, true) ↔ Spells s b := by
  constructor
  · induction s using hexDecode.induct generalizing b with
    | case1 a c rest x y hy hx ih =>
      intro h
      unfold hexDecode at h
      simp only [hx, hy, Prod.mk.injEq] at h
      obtain ⟨h1, h2⟩ := h
      have hx' := (hexVal_iff a x).1 hx
      have hy' := (hexVal_iff c y).1 hy
      subst h1
      exact .cons hx' hy' (nibbles x y (hexDigit_lt hx') (hexDigit_lt hy')) (ih _ (Prod.ext rfl h2))
    | case2 a c rest hno =>
      intro h
      unfold hexDecode at h
      split at h
      · rename_i x y hx hy; exact absurd hy (hno x y hx)
      · cases h
    | case3 => intro h; cases h
    | case4 => intro h; cases h; exact .nil
  · intro h
    induction h with
    | nil => rfl
    | @cons h l b v w s bs hh hl hb _ ih =>
      have hv := hexDigit_lt hh
      have hw := hexDigit_lt hl
      have ev : (UInt8.ofNat v).toNat = v := by rw [UInt8.toNat_ofNat']; omega
      have ew : (UInt8.ofNat w).toNat = w := by rw [UInt8.toNat_ofNat']; omega
      have e1 : hexVal h = some (UInt8.ofNat v) := (hexVal_iff _ _).2 (by rw [ev]; exact hh)
      have e2 : hexVal l = some (UInt8.ofNat w) := (hexVal_iff _ _).2 (by rw [ew]; exact hl)
      unfold hexDecode
      rw [e1, e2, ih]
      dsimp only
      congr 2
      rw [← UInt8.toNat_inj, nibbles _ _ (by omega) (by omega), ev, ew, hb]

private theorem splitColon_mk (h id : Bytes) (hh : 58 ∉ h) : splitColon (h ++ 58 :: id) = (h, some id) := by
  induction h with
  | nil => simp [splitColon]
  | cons c h ih =>
    simp only [List.mem_cons, not_or] at hh
    rw [List.cons_append]
    unfold splitColon
    rw [if_neg (fun e => hh.1 e.symm), ih hh.2]

private theorem splitColon_none (o : Bytes) (h : 58 ∉ o) : splitColon o = (o, none) := by
  induction o with
  | nil => rfl
  | cons c o ih =>
    simp only [List.mem_cons, not_or] at h
    unfold splitColon
    rw [if_neg (fun e => h.1 e.symm), ih h.2]

private theorem numeral_no_colon (h : Bytes) (hn : Numeral h) : 58 ∉ h := by
  intro hc
  have := (hn.2 58 hc).2
  revert this; decide

/-- C58, the part that holds: a well-formed option is read as exactly the checkpoint it denotes. -/
theorem C58_well_formed_partial (opt : Bytes) (c : Checkpoint) (h : Means opt c) : checkpoint opt = some c := by
  obtain ⟨ht, id, rfl, hn, hv, hs⟩ := h
  unfold checkpoint
  rw [splitColon_mk _ _ (numeral_no_colon ht hn)]
  dsimp only
  have hlt := c.height.toNat_lt
  rw [parseUint_ok ht hn (by rw [hv]; omega), (hexDecode_iff id c.id).2 hs, hv]
  simp

/-- C58, the part that holds: a list of well-formed options is read in order, with nothing left out or added. -/
theorem C58_list_partial (opts : List Bytes) (cs : List Checkpoint) (h : List.Forall₂ Means opts cs) :
    checkpoints opts = some cs := by
  induction h with
  | nil => rfl
  | cons h _ ih =>
    unfold checkpoints
    rw [C58_well_formed_partial _ _ h, ih]

/-- The claim that every option that is no checkpoint is rejected. -/
def RejectsMalformed : Prop := ∀ opt c, checkpoint opt = some c → Means opt c

/-- C58 refuted: every option with a colon becomes a checkpoint, even if its height is no number (then the height is 0 or
2^64-1) or its id is not hexadecimal (then the id is cut). -/
theorem C58_malformed_refuted (h id : Bytes) (hc : 58 ∉ h) (hbad : ¬ (Numeral h ∧ numeralValue h < 18446744073709551616)) :
    ∃ c, checkpoint (h ++ 58 :: id) = some c ∧ (c.height = 0 ∨ c.height = 18446744073709551615) := by
  refine ⟨_, by unfold checkpoint; rw [splitColon_mk h id hc], (parseUint_bad h hbad).2⟩

theorem C58_rejects_refuted : ¬ RejectsMalformed := by
  intro h
  -- the option "a:"
  obtain ⟨ht, id, he, hn, -, -⟩ := h [97, 58] ⟨0, []⟩ (by decide +kernel)
  cases ht with
  | nil => exact hn.1 rfl
  | cons x ht =>
    simp only [List.cons_append, List.cons.injEq] at he
    have := (hn.2 x (List.mem_cons_self ..)).2
    rw [← he.1] at this
    revert this; decide

/-- C58 refuted: an option without colon crashes the program at start-up, wherever it stands in the list. -/
theorem C58_missing_colon_refuted (pre post : List Bytes) (opt : Bytes) (h : 58 ∉ opt) :
    checkpoints (pre ++ opt :: post) = none := by
  induction pre with
  | nil =>
    rw [List.nil_append]
    unfold checkpoints checkpoint
    rw [splitColon_none opt h]
  | cons o pre ih =>
    rw [List.cons_append]
    unfold checkpoints
    cases checkpoint o with
    | none => rfl
    | some c => dsimp only; rw [ih]

/-- C58, what malformed options lead to: an option whose id does not start with a hexadecimal digit becomes a checkpoint
that no block satisfies, so every peer that answers with an actual block id fails the handshake as being on a fork. -/
theorem C58_lockout_refuted (h id : Bytes) (c : UInt8) (hh : 58 ∉ h) (hx : hexVal c = none) (o : PeerConn.Opts)
    (ho : checkpoints [h ++ 58 :: c :: id] = some o.checkpoints) (e : PeerConn.HsEnv)
    (hans : ∀ i hd n b, e.ancestor i hd n = .ok b → b ≠ []) (v : PeerConn.Version) (hv : e.version = .ok v)
    (chain : Bytes) (hl : e.localChainID = .ok chain) (hp : e.peerChainID = .ok chain) (hd : Bytes × UInt64)
    (hph : e.peerHead = .ok hd) : (PeerConn.handshake o e).err = some (.sentinel .checkpointMismatch) := by
  have hid : (hexDecode (c :: id)).1 = [] := by
    unfold hexDecode
    cases id with
    | nil => rfl
    | cons d id => dsimp only; rw [hx]
  unfold checkpoints checkpoint at ho
  rw [splitColon_mk _ _ hh] at ho
  simp only [checkpoints, Option.some.injEq] at ho
  rw [hid] at ho
  unfold PeerConn.handshake
  rw [hv]; dsimp only
  unfold PeerConn.handshakeRest
  rw [hl, hp]; dsimp only
  rw [if_pos rfl, hph]; dsimp only
  rw [← ho]
  unfold PeerConn.checkpointLoop
  cases ha : e.ancestor 0 hd.1 (parseUint h).1 with
  | error err => rfl
  | ok b => dsimp only; rw [if_neg (hans _ _ _ _ ha)]

/- "12:0aF3" is the checkpoint of height 12 with the id of the bytes 10, 243. -/
example : Means [49, 50, 58, 48, 97, 70, 51] ⟨12, [10, 243]⟩ := by
  refine ⟨[49, 50], [48, 97, 70, 51], rfl, ⟨by decide, by decide⟩, by decide +kernel, ?_⟩
  refine .cons (v := 0) (w := 10) (.inl (by decide)) (.inr (.inl (by decide))) (by decide) ?_
  exact .cons (v := 15) (w := 3) (.inr (.inr (by decide))) (.inl (by decide)) (by decide) .nil
example : checkpoint [49, 50, 58, 48, 97, 70, 51] = some ⟨12, [10, 243]⟩ := by decide +kernel
/- "12:0x0a" (with the usual prefix) becomes an empty id; "1_000:0a" becomes height 0. -/
example : checkpoint [49, 50, 58, 48, 120, 48, 97] = some ⟨12, []⟩ := by decide +kernel
example : checkpoint [49, 95, 48, 48, 48, 58, 48, 97] = some ⟨0, [10]⟩ := by decide +kernel

/-! ### C70: peer options -/

/-- C70 refuted: one peer option that does not parse crashes the program, wherever it stands. -/
theorem C70_bad_peer_refuted {Addr : Type} (parse : Bytes → Option Addr) (pre post : List Bytes) (opt : Bytes)
    (h : parse opt = none) : initialPeers parse (pre ++ opt :: post) = none := by
  induction pre with
  | nil => rw [List.nil_append]; unfold initialPeers; rw [h]
  | cons o pre ih =>
    rw [List.cons_append]
    unfold initialPeers
    cases parse o with
    | none => rfl
    | some c => dsimp only; rw [ih]

/-- C70 as far as it holds: options that parse give exactly their addresses, in order. -/
theorem C70_good_peers_partial {Addr : Type} (parse : Bytes → Option Addr) (opts : List Bytes) (addrs : List Addr)
    (h : List.Forall₂ (fun o a => parse o = some a) opts addrs) : initialPeers parse opts = some addrs := by
  induction h with
  | nil => rfl
  | cons h _ ih => unfold initialPeers; rw [h, ih]

example : initialPeers (fun o => o.head?) [[1, 2], [], [3]] = none := by decide +kernel
example : initialPeers (fun o => o.head?) [[1, 2], [3]] = some [1, 3] := by decide +kernel

end KP2P

import Verif.Base.Ascii
import Verif.Model.Node
import Verif.Spec.Base64
import Verif.Model.GossipToggle
import Verif.Model.Applicator
import Mathlib.Data.Finset.Card
import Mathlib.Data.Finset.Image
import Mathlib.Data.Int.Interval
/-!
# C54–C57, C69, C71: the node
-/

namespace KP2P
open KP2P.Node

/-! ### C54: the status RPC -/

/-- C54. Every request is answered: with the gossip status exactly if it is a status request, and the status is the one
the toggle reports; with an error response in every other case. -/
theorem C54_answer (decode : Bytes → Except Err (Option Req)) (g : Toggle) (data : Bytes) :
    (decode data = .ok (some .getGossipStatus) → handleRPC decode g.enabled data = .gossipStatus g.enabled) ∧
    (decode data ≠ .ok (some .getGossipStatus) → handleRPC decode g.enabled data = .error) := by
  unfold handleRPC handleRequest
  cases h : decode data with
  | error e => simp
  | ok r =>
    cases r with
    | none => simp
    | some r => cases r <;> simp

example : handleRPC (fun _ => .ok (some .getGossipStatus)) true [1] = .gossipStatus true := by decide +kernel
example : handleRPC (fun _ => .ok (some (.other 3))) true [1] = .error := by decide +kernel
example : handleRPC (fun _ => .ok none) true [] = .error := by decide +kernel

/-! ### C55: message ids -/

private theorem b64Char_inj : ∀ m n : Nat, m < 64 → n < 64 → b64Char m = b64Char n → m = n := by
  have : ∀ m : Fin 64, ∀ n : Fin 64, b64Char m.1 = b64Char n.1 → m.1 = n.1 := by decide +kernel
  exact fun m n hm hn h => this ⟨m, hm⟩ ⟨n, hn⟩ h

/-- The encoding is injective on all byte strings. -/
theorem base64_injective : ∀ x y : Bytes, base64 x = base64 y → x = y := by
  intro x
  induction x using base64.induct with
  | case1 a b c rest ih =>
    intro y h
    have ha := a.toNat_lt; have hb := b.toNat_lt; have hc := c.toNat_lt
    match y with
    | d :: e :: f :: rest' =>
      have hd := d.toNat_lt; have he := e.toNat_lt; have hf := f.toNat_lt
      simp only [base64, List.cons.injEq] at h
      obtain ⟨h1, h2, h3, h4, h5⟩ := h
      have e1 := b64Char_inj _ _ (by omega) (by omega) h1
      have e2 := b64Char_inj _ _ (by omega) (by omega) h2
      have e3 := b64Char_inj _ _ (by omega) (by omega) h3
      have e4 := b64Char_inj _ _ (by omega) (by omega) h4
      have ea : a = d := UInt8.toNat_inj.1 (by omega)
      have eb : b = e := UInt8.toNat_inj.1 (by omega)
      have ec : c = f := UInt8.toNat_inj.1 (by omega)
      rw [ea, eb, ec, ih rest' h5]
    | [d, e] => simp [base64] at h
    | [d] => simp [base64] at h
    | [] => simp [base64] at h
  | case2 a b =>
    intro y h
    have ha := a.toNat_lt; have hb := b.toNat_lt
    match y with
    | d :: e :: f :: rest' => simp [base64] at h
    | [d, e] =>
      have hd := d.toNat_lt; have he := e.toNat_lt
      simp only [base64, List.cons.injEq, and_true] at h
      obtain ⟨h1, h2, h3⟩ := h
      have e1 := b64Char_inj _ _ (by omega) (by omega) h1
      have e2 := b64Char_inj _ _ (by omega) (by omega) h2
      have e3 := b64Char_inj _ _ (by omega) (by omega) h3
      have ea : a = d := UInt8.toNat_inj.1 (by omega)
      have eb : b = e := UInt8.toNat_inj.1 (by omega)
      rw [ea, eb]
    | [d] => simp [base64] at h
    | [] => simp [base64] at h
  | case3 a =>
    intro y h
    have ha := a.toNat_lt
    match y with
    | d :: e :: f :: rest' => simp [base64] at h
    | [d, e] => simp [base64] at h
    | [d] =>
      have hd := d.toNat_lt
      simp only [base64, List.cons.injEq, and_true] at h
      obtain ⟨h1, h2⟩ := h
      have e1 := b64Char_inj _ _ (by omega) (by omega) h1
      have e2 := b64Char_inj _ _ (by omega) (by omega) h2
      have ea : a = d := UInt8.toNat_inj.1 (by omega)
      rw [ea]
    | [] => simp [base64] at h
  | case4 =>
    intro y h
    match y with
    | d :: e :: f :: rest' => simp [base64] at h
    | [d, e] => simp [base64] at h
    | [d] => simp [base64] at h
    | [] => rfl

private theorem b64Char_idx : ∀ n : Nat, n < 64 → Spec.b64Alphabet.idxOf (b64Char n) = n ∧ b64Char n ∈ Spec.b64Alphabet := by
  have : ∀ n : Fin 64, Spec.b64Alphabet.idxOf (b64Char n.1) = n.1 ∧ b64Char n.1 ∈ Spec.b64Alphabet := by decide +kernel
  exact fun n hn => this ⟨n, hn⟩

private theorem base64_value (x : Bytes) : ∀ acc, (base64 x).length = (8 * x.length + 5) / 6 ∧
    (∀ c ∈ base64 x, c ∈ Spec.b64Alphabet) ∧
    Spec.value64 acc (base64 x) = Spec.value256 acc x * 2 ^ (6 * (base64 x).length - 8 * x.length) := by
  induction x using base64.induct with
  | case1 a b c rest ih =>
    intro acc
    have ha := a.toNat_lt; have hb := b.toNat_lt; have hc := c.toNat_lt
    obtain ⟨h1, h2, h3⟩ := ih (((acc * 256 + a.toNat) * 256 + b.toNat) * 256 + c.toNat)
    obtain ⟨i1, m1⟩ := b64Char_idx (a.toNat / 4) (by omega)
    obtain ⟨i2, m2⟩ := b64Char_idx (a.toNat % 4 * 16 + b.toNat / 16) (by omega)
    obtain ⟨i3, m3⟩ := b64Char_idx (b.toNat % 16 * 4 + c.toNat / 64) (by omega)
    obtain ⟨i4, m4⟩ := b64Char_idx (c.toNat % 64) (by omega)
    refine ⟨by simp only [base64, List.length_cons, h1]; omega, ?_, ?_⟩
    · intro z hz
      simp only [base64, List.mem_cons] at hz
      rcases hz with rfl | rfl | rfl | rfl | hz
      exacts [m1, m2, m3, m4, h2 z hz]
    · simp only [base64, Spec.value64, Spec.value256, List.foldl_cons, List.length_cons, i1, i2, i3, i4] at h3 ⊢
      rw [show (((acc * 64 + a.toNat / 4) * 64 + (a.toNat % 4 * 16 + b.toNat / 16)) * 64 + (b.toNat % 16 * 4 + c.toNat / 64)) * 64 +
        c.toNat % 64 = ((acc * 256 + a.toNat) * 256 + b.toNat) * 256 + c.toNat by omega, h3]
      congr 2
      omega
  | case2 a b =>
    intro acc
    have ha := a.toNat_lt; have hb := b.toNat_lt
    obtain ⟨i1, m1⟩ := b64Char_idx (a.toNat / 4) (by omega)
    obtain ⟨i2, m2⟩ := b64Char_idx (a.toNat % 4 * 16 + b.toNat / 16) (by omega)
    obtain ⟨i3, m3⟩ := b64Char_idx (b.toNat % 16 * 4) (by omega)
    refine ⟨by simp [base64], ?_, ?_⟩
    · intro z hz
      simp only [base64, List.mem_cons, List.not_mem_nil, or_false] at hz
      rcases hz with rfl | rfl | rfl
      exacts [m1, m2, m3]
    · simp [base64, Spec.value64, Spec.value256, i1, i2, i3]; omega
  | case3 a =>
    intro acc
    have ha := a.toNat_lt
    obtain ⟨i1, m1⟩ := b64Char_idx (a.toNat / 4) (by omega)
    obtain ⟨i2, m2⟩ := b64Char_idx (a.toNat % 4 * 16) (by omega)
    refine ⟨by simp [base64], ?_, ?_⟩
    · intro z hz
      simp only [base64, List.mem_cons, List.not_mem_nil, or_false] at hz
      rcases hz with rfl | rfl
      exacts [m1, m2]
    · simp [base64, Spec.value64, Spec.value256, i1, i2]; omega
  | case4 => intro acc; simp [base64, Spec.value64, Spec.value256]

/-- A message of the block or transaction topic. -/
def Gossip (m : GMsg) : Prop := m.topic = ascii "koinos.blocks" ∨ m.topic = ascii "koinos.transactions"

private theorem gossip_iff (m : GMsg) : Gossip m ↔ m.topic = blockTopic ∨ m.topic = transactionTopic := by
  unfold Gossip
  rw [show ascii "koinos.blocks" = blockTopic by decide, show ascii "koinos.transactions" = transactionTopic by decide]

/-- C55. Two gossip messages have the same id iff the digests of their payloads are equal, whatever the topic, sender,
sequence number and signature. -/
theorem C55_id_iff (sha : Bytes → Bytes) (dflt : GMsg → Bytes) (m n : GMsg) (hm : Gossip m) (hn : Gossip n) :
    messageID sha dflt m = messageID sha dflt n ↔ sha m.data = sha n.data := by
  unfold messageID
  rw [gossip_iff] at hm hn
  rw [if_pos hm, if_pos hn]
  exact ⟨base64_injective _ _, fun h => by rw [h]⟩

/-- C55. In particular the same payload sent twice, by anyone on either topic, is one message. -/
theorem C55_same_payload (sha : Bytes → Bytes) (dflt : GMsg → Bytes) (m n : GMsg) (hm : Gossip m) (hn : Gossip n)
    (h : m.data = n.data) : messageID sha dflt m = messageID sha dflt n :=
  (C55_id_iff sha dflt m n hm hn).2 (by rw [h])

/-- C55. The id of a gossip message is the base64 encoding, without padding, of the digest of its payload. -/
theorem C55_encoding (sha : Bytes → Bytes) (dflt : GMsg → Bytes) (m : GMsg) (hm : Gossip m) :
    Spec.IsBase64 (sha m.data) (messageID sha dflt m) := by
  unfold messageID
  rw [gossip_iff] at hm
  rw [if_pos hm]
  obtain ⟨h1, h2, h3⟩ := base64_value (sha m.data) 0
  exact ⟨h1, h2, h3⟩

/-- C55. Other topics (peer exchange) keep the default id. -/
theorem C55_other_topic (sha : Bytes → Bytes) (dflt : GMsg → Bytes) (m : GMsg) (hm : ¬ Gossip m) :
    messageID sha dflt m = dflt m := by
  rw [gossip_iff] at hm
  unfold messageID; exact if_neg hm

/- "Man" encodes to "TWFu", "Ma" to "TWE", "M" to "TQ". -/
example : base64 [77, 97, 110] = [84, 87, 70, 117] := by decide +kernel
example : base64 [77, 97] = [84, 87, 69] := by decide +kernel
example : base64 [77] = [84, 81] := by decide +kernel
example : Gossip ⟨blockTopic, [1], [], [], []⟩ ∧ Gossip ⟨transactionTopic, [1], [2], [3], [4]⟩ := ⟨.inl (by decide), .inr (by decide)⟩

/-! ### C56, C69: the node key -/

/-- C56. The key is a function of a non-empty seed: the random fallback has no influence. -/
theorem C56_deterministic {Key : Type} (sha : Bytes → Bytes) (keygen : Int → Except Err Key) (seed f f' : Bytes)
    (h : seed ≠ []) : privateKey sha keygen f seed = privateKey sha keygen f' seed := by
  unfold privateKey; rw [if_neg h, if_neg h]

/-- C56. Only the first eight bytes of the digest of the seed matter. -/
theorem C56_eight_bytes {Key : Type} (sha : Bytes → Bytes) (keygen : Int → Except Err Key) (seed seed' f f' : Bytes)
    (h : seed ≠ []) (h' : seed' ≠ []) (he : (sha seed).take 8 = (sha seed').take 8) :
    privateKey sha keygen f seed = privateKey sha keygen f' seed' := by
  unfold privateKey seedToInt64
  rw [if_neg h, if_neg h', he]

/-- The big-endian value of a byte string, spelled out. -/
private theorem bigEndian_lt (bs : Bytes) : bigEndian bs < 256 ^ bs.length := by
  unfold bigEndian
  have : ∀ (bs : Bytes) (n : Nat), bs.foldl (fun n b => n * 256 + b.toNat) n < (n + 1) * 256 ^ bs.length := by
    intro bs
    induction bs with
    | nil => intro n; simp
    | cons b bs ih =>
      intro n
      have hb := b.toNat_lt
      calc (b :: bs).foldl (fun n b => n * 256 + b.toNat) n
          = bs.foldl (fun n b => n * 256 + b.toNat) (n * 256 + b.toNat) := rfl
        _ < (n * 256 + b.toNat + 1) * 256 ^ bs.length := ih _
        _ ≤ ((n + 1) * 256) * 256 ^ bs.length := Nat.mul_le_mul_right _ (by omega)
        _ = (n + 1) * 256 ^ (b :: bs).length := by
          rw [List.length_cons, Nat.pow_succ, Nat.mul_comm (256 ^ bs.length), Nat.mul_assoc]
  simpa using this bs 0

/-- C56. The eight bytes determine the derived number and are determined by it: distinct first eight bytes give distinct
numbers. -/
theorem C56_number_injective (sha : Bytes → Bytes) (seed seed' : Bytes) (hl : 8 ≤ (sha seed).length)
    (hl' : 8 ≤ (sha seed').length) :
    seedToInt64 sha seed = seedToInt64 sha seed' ↔ (sha seed).take 8 = (sha seed').take 8 := by
  constructor
  · intro h
    unfold seedToInt64 at h
    have h1 : UInt64.ofNat (bigEndian ((sha seed).take 8)) = UInt64.ofNat (bigEndian ((sha seed').take 8)) := by
      have := congrArg Int64.toUInt64 h
      simpa using this
    have e1 : ((sha seed).take 8).length = 8 := by simp [hl]
    have e2 : ((sha seed').take 8).length = 8 := by simp [hl']
    have b1 := bigEndian_lt ((sha seed).take 8)
    have b2 := bigEndian_lt ((sha seed').take 8)
    rw [e1] at b1; rw [e2] at b2
    have h2 : bigEndian ((sha seed).take 8) = bigEndian ((sha seed').take 8) := by
      have := congrArg UInt64.toNat h1
      rw [UInt64.toNat_ofNat', UInt64.toNat_ofNat', Nat.mod_eq_of_lt (by omega), Nat.mod_eq_of_lt (by omega)] at this
      exact this
    -- the value determines the digits
    have key : ∀ (x y : Bytes) (m n : Nat), x.length = y.length →
        x.foldl (fun n b => n * 256 + b.toNat) m = y.foldl (fun n b => n * 256 + b.toNat) n → m = n ∧ x = y := by
      intro x
      induction x with
      | nil =>
        intro y m n hxy he
        cases y with
        | nil => exact ⟨he, rfl⟩
        | cons => cases hxy
      | cons a x ih =>
        intro y m n hxy he
        cases y with
        | nil => cases hxy
        | cons b y =>
          obtain ⟨h3, h4⟩ := ih y _ _ (by simpa using hxy) he
          have ha := a.toNat_lt; have hb := b.toNat_lt
          dsimp only at h3
          have : m = n ∧ a.toNat = b.toNat := by omega
          exact ⟨this.1, by rw [h4, UInt8.toNat_inj.1 this.2]⟩
    exact (key _ _ 0 0 (by rw [e1, e2]) h2).2
  · intro h; unfold seedToInt64; rw [h]

/-- C69. All node keys come from fewer than 2^31 seeds of the random source: whatever the digest and the key generator,
there is a set of at most 2^31 - 2 numbers such that every key of every seed string is the key of one of them. -/
def KeySpaceAtLeast (sha : Bytes → Bytes) (n : Nat) : Prop :=
  ∃ seeds : Finset Bytes, n ≤ (seeds.image fun s => sourceSeed (seedToInt64 sha s)).card

private theorem sourceSeed_range (x : Int64) : 1 ≤ sourceSeed x ∧ sourceSeed x ≤ 2147483646 := by
  unfold sourceSeed
  have h1 : x.toInt.tmod 2147483647 < 2147483647 := Int.tmod_lt_of_pos _ (by decide)
  have h2 : -2147483647 < x.toInt.tmod 2147483647 := Int.lt_tmod_of_pos _ (by decide)
  dsimp only
  split <;> split <;> omega

/-- C69 refuted: the claim that seeds give at least 2^31 - 1 different sources (let alone the 2^128 and more of a sound
key) is false, for every digest function. -/
theorem C69_key_space_refuted (sha : Bytes → Bytes) (n : Nat) (hn : 2147483647 ≤ n) : ¬ KeySpaceAtLeast sha n := by
  rintro ⟨seeds, h⟩
  have hsub : (seeds.image fun s => sourceSeed (seedToInt64 sha s)) ⊆ Finset.Icc (1 : Int) 2147483646 := by
    intro z hz
    obtain ⟨s, _, rfl⟩ := Finset.mem_image.1 hz
    exact Finset.mem_Icc.2 (sourceSeed_range _)
  have hc := Finset.card_le_card hsub
  rw [Int.card_Icc] at hc
  have : (2147483646 + 1 - 1 : Int).toNat = 2147483646 := rfl
  omega

/-- C69: consequently two different derived numbers can give the same node key. -/
theorem C69_collision_refuted {Key : Type} (keygen : Int → Except Err Key) :
    ∃ a b : Int64, a ≠ b ∧ keygen (sourceSeed a) = keygen (sourceSeed b) :=
  ⟨1, 2147483648, by decide, by
    have : sourceSeed 1 = sourceSeed 2147483648 := by decide +kernel
    rw [this]⟩

/-- C69 as far as it holds: numbers of the range the source keeps apart do give different sources. -/
theorem C69_distinct_partial (a b : Int64) (ha : 0 < a.toInt) (ha' : a.toInt < 2147483647) (hb : 0 < b.toInt)
    (hb' : b.toInt < 2147483647) (h : sourceSeed a = sourceSeed b) : a = b := by
  unfold sourceSeed at h
  rw [Int.tmod_eq_of_lt (by omega) ha', Int.tmod_eq_of_lt (by omega) hb'] at h
  dsimp only at h
  rw [if_neg (by omega), if_neg (by omega), if_neg (by omega), if_neg (by omega)] at h
  exact Int64.toInt_inj.1 h

/- The seed of the empty-digest function, and two seeds with equal first eight bytes. -/
example : seedToInt64 (fun _ => [255, 255, 255, 255, 255, 255, 255, 255, 7]) [1] = -1 := by decide +kernel
example : sourceSeed (-1) = 2147483646 := by decide +kernel

/-! ### C57: the two copies of the irreversible height -/

open LibSync in
/-- The claim: once every update has been handed over, both copies agree. -/
def CopiesAgree (n a : UInt64) (ls : List LibSync.Label) : Prop :=
  ∀ s, LibSync.run (LibSync.init n a) ls = some s → s.pending = [] → s.ghost ≠ [] → s.applicator = s.node

/-- C57 refuted: whenever two updates with different heights arrive and the goroutine of the second is the faster one,
the applicator stays on the first height. -/
theorem C57_agree_refuted (n a h h' : UInt64) (hne : h ≠ h') :
    ¬ CopiesAgree n a [.update h, .update h', .deliver 1, .deliver 0] := fun hc =>
  hne (hc _ rfl rfl (by simp [LibSync.init]))

/-- Every delivery takes the oldest pending update. -/
def InOrder (ls : List LibSync.Label) : Prop := ∀ i, LibSync.Label.deliver i ∈ ls → i = 0

private theorem lib_inv (P : LibSync.State → Prop) (L : LibSync.Label → Prop)
    (hP : ∀ s l s', P s → L l → LibSync.step s l = some s' → P s') :
    ∀ (ls : List LibSync.Label) (s s' : LibSync.State), P s → (∀ l ∈ ls, L l) → LibSync.run s ls = some s' → P s' := by
  intro ls
  induction ls with
  | nil => intro s s' h _ hr; cases hr; exact h
  | cons l ls ih =>
    intro s s' h hl hr
    unfold LibSync.run at hr
    cases hs : LibSync.step s l with
    | none => rw [hs] at hr; cases hr
    | some t =>
      rw [hs] at hr
      exact ih t s' (hP s l t h (hl l (List.mem_cons_self ..)) hs) (fun x hx => hl x (List.mem_cons_of_mem _ hx)) hr

/-- C57 as far as it holds: if the updates are handed over in the order of their arrival, both copies agree once all have
been handed over. -/
theorem C57_agree_partial (n a : UInt64) (ls : List LibSync.Label) (ho : InOrder ls) : CopiesAgree n a ls := by
  intro s hr hp hg
  have := lib_inv (fun s => (s.ghost ≠ [] → s.pending = [] → s.applicator = s.node) ∧
      (s.pending ≠ [] → s.pending.getLast? = some s.node))
    (fun l => ∀ i, l = .deliver i → i = 0) ?_ ls (LibSync.init n a) s
    ⟨fun h => absurd rfl h, fun h => absurd rfl h⟩ (fun l hl i e => ho i (e ▸ hl)) hr
  · exact this.1 hg hp
  · intro s l s' ⟨h1, h2⟩ hl hs
    cases l with
    | update h =>
      cases hs
      refine ⟨fun _ hp => ?_, fun _ => ?_⟩
      · simp at hp
      · simp
    | deliver i =>
      obtain rfl := hl i rfl
      unfold LibSync.step at hs
      cases hps : s.pending with
      | nil => rw [hps] at hs; cases hs
      | cons x xs =>
        rw [hps] at hs
        simp only [List.getElem?_cons_zero, Option.some.injEq] at hs
        subst hs
        have h3 := h2 (by rw [hps]; simp)
        rw [hps] at h3
        dsimp only
        refine ⟨fun _ hp => ?_, fun hp => ?_⟩
        · have : xs = [] := by simpa using hp
          subst this
          simpa using h3
        · cases xs with
          | nil => exact absurd rfl hp
          | cons y ys => simpa using h3

/-- C57 as far as it holds, whatever the order: the applicator's height is its initial height or the height of an update
received, so it is never ahead of what the node has been told. -/
theorem C57_known_partial (n a : UInt64) (ls : List LibSync.Label) (s : LibSync.State)
    (hr : LibSync.run (LibSync.init n a) ls = some s) :
    (s.applicator = a ∨ s.applicator ∈ s.ghost) ∧ (∀ h ∈ s.pending, h ∈ s.ghost) ∧
    (s.ghost.getLast?.getD n = s.node) := by
  refine lib_inv (fun s => (s.applicator = a ∨ s.applicator ∈ s.ghost) ∧ (∀ h ∈ s.pending, h ∈ s.ghost) ∧
    (s.ghost.getLast?.getD n = s.node)) (fun _ => True) ?_ ls (LibSync.init n a) s ⟨.inl rfl, by simp [LibSync.init], rfl⟩
    (fun _ _ => trivial) hr
  intro s l s' ⟨h1, h2, h3⟩ _ hs
  cases l with
  | update h =>
    cases hs
    refine ⟨h1.imp id fun h => List.mem_append_left _ h, fun x hx => ?_, by simp⟩
    rcases List.mem_append.1 hx with hx | hx
    · exact List.mem_append_left _ (h2 x hx)
    · exact List.mem_append_right _ hx
  | deliver i =>
    simp only [LibSync.step] at hs
    cases hp : s.pending[i]? with
    | none => rw [hp] at hs; cases hs
    | some h =>
      rw [hp] at hs; cases hs
      exact ⟨.inr (h2 h (List.mem_of_getElem? hp)), fun x hx => h2 x (List.mem_of_mem_eraseIdx hx), h3⟩

/-- The applicator's copy in this model is the one of the applicator model: handling fork heads sets it to the height of
the update. -/
theorem C57_applicator_lib_partial (o : AppOpts) (s : AState) (heads : List Bytes) (lib : UInt64) :
    (App.handleForkHeads o s heads lib).lib = lib := by
  have rem : ∀ (s : AState) id e, (App.removeBlockEntry s id e).lib = s.lib := by
    intro s id e
    unfold App.removeBlockEntry
    split <;> simp [App.answerAll]
  have evict : ∀ (s : AState) h, (App.evictHeight s h).lib = s.lib := by
    intro s h
    unfold App.evictHeight
    cases s.byHeight.get h with
    | none => rfl
    | some ids =>
      dsimp only
      generalize ids.keys = ks
      induction ks generalizing s with
      | nil => rfl
      | cons k ks ih => rw [List.foldl_cons, ih, rem]
  have child : ∀ (s : AState) id, (App.checkChildren o s id).lib = s.lib := by
    intro s id
    unfold App.checkChildren
    cases s.byPrev.get id with
    | none => rfl
    | some ids =>
      dsimp only
      generalize ids.keys = ks
      induction ks generalizing s with
      | nil => rfl
      | cons k ks ih =>
        rw [List.foldl_cons, ih]
        split <;> rfl
  have fold1 : ∀ (hs : List UInt64) (s : AState), (hs.foldl App.evictHeight s).lib = s.lib := by
    intro hs
    induction hs with
    | nil => intro s; rfl
    | cons h hs ih => intro s; rw [List.foldl_cons, ih, evict]
  have fold2 : ∀ (hs : List Bytes) (s : AState), (hs.foldl (App.checkChildren o) s).lib = s.lib := by
    intro hs
    induction hs with
    | nil => intro s; rfl
    | cons h hs ih => intro s; rw [List.foldl_cons, ih, child]
  unfold App.handleForkHeads
  simp only [fold1, fold2]

example : InOrder [.update 5, .update 6, .deliver 0, .deliver 0] := by
  intro i h; simpa using h
example : (LibSync.run (LibSync.init 1 1) [.update 5, .update 6, .deliver 0, .deliver 0]).map (fun s => (s.node, s.applicator)) =
    some (6, 6) := by decide +kernel
example : (LibSync.run (LibSync.init 1 1) [.update 5, .update 6, .deliver 1, .deliver 0]).map (fun s => (s.node, s.applicator)) =
    some (6, 5) := by decide +kernel

/-! ### C71: local broadcasts -/

/-- The claim: no broadcast crashes the node. -/
def BroadcastsSafe (db : Bytes → Except Err BlockAccepted) (df : Bytes → Except Err ForkHeads)
    (dt : Bytes → Except Err (Option Tx)) (enabled tolerant : Bool) : Prop :=
  ∀ data, handleBlockBroadcast db data ≠ none ∧ handleForkUpdate df data ≠ none ∧
    handleTransactionBroadcast dt enabled tolerant data ≠ none

/-- C71 refuted: any decodable block broadcast without block or header, and any fork update without irreversible block,
crashes the node. The empty message is one (an empty protobuf message decodes with everything missing). A transaction
broadcast without transaction crashes it if gossip is on and the libraries that encode and print transactions do not put
up with a nil pointer. -/
theorem C71_crash_refuted (db : Bytes → Except Err BlockAccepted) (df : Bytes → Except Err ForkHeads)
    (dt : Bytes → Except Err (Option Tx)) (enabled tolerant : Bool) :
    (∀ data a, db data = .ok a → (a.block = none ∨ ∃ b, a.block = some b ∧ b.header = none) →
      handleBlockBroadcast db data = none) ∧
    (∀ data f, df data = .ok f → f.lib = none → handleForkUpdate df data = none) ∧
    (∀ data, dt data = .ok none → enabled = true → tolerant = false →
      handleTransactionBroadcast dt enabled tolerant data = none) ∧
    (db [] = .ok ⟨none, false⟩ → ¬ BroadcastsSafe db df dt enabled tolerant) := by
  have h1 : ∀ data a, db data = .ok a → (a.block = none ∨ ∃ b, a.block = some b ∧ b.header = none) →
      handleBlockBroadcast db data = none := by
    intro data a h hc
    unfold handleBlockBroadcast
    rw [h]; dsimp only
    rcases hc with hc | ⟨b, hb, hc⟩
    · rw [hc]
    · rw [hb]; dsimp only; rw [hc]
  refine ⟨h1, ?_, ?_, fun h hs => (hs []).1 (h1 [] _ h (.inl rfl))⟩
  · intro data f h hl
    unfold handleForkUpdate
    rw [h]; dsimp only; rw [hl]
  · intro data h he ht
    subst he; subst ht
    unfold handleTransactionBroadcast
    rw [h]; rfl

/-- C71 as far as it holds: undecodable broadcasts are ignored; complete ones have exactly the intended effects. -/
theorem C71_effects_partial (db : Bytes → Except Err BlockAccepted) (df : Bytes → Except Err ForkHeads)
    (dt : Bytes → Except Err (Option Tx)) (enabled tolerant : Bool) (data : Bytes) :
    ((∃ e, db data = .error e) → handleBlockBroadcast db data = some []) ∧
    ((∃ e, df data = .error e) → handleForkUpdate df data = some []) ∧
    ((∃ e, dt data = .error e) → handleTransactionBroadcast dt enabled tolerant data = some []) ∧
    (∀ t, dt data = .ok (some t) → handleTransactionBroadcast dt enabled tolerant data = some [.publishTransaction (some t)]) ∧
    (dt data = .ok none → enabled = false → handleTransactionBroadcast dt enabled tolerant data ≠ none) ∧
    (∀ b h hd, db data = .ok ⟨some b, hd⟩ → b.header = some h → ∃ es, handleBlockBroadcast db data = some es ∧
      es.Nodup ∧ ∀ x, x ∈ es ↔ (x = .headTime h.timestamp ∧ hd = true) ∨ x = .accepted b h.height ∨ x = .publishBlock b) ∧
    (∀ f l, df data = .ok f → f.lib = some l → handleForkUpdate df data = some [.storeLib l, .forks f.heads l.height]) := by
  refine ⟨?_, ?_, ?_, ?_, ?_, ?_, ?_⟩
  · rintro ⟨e, h⟩; unfold handleBlockBroadcast; rw [h]
  · rintro ⟨e, h⟩; unfold handleForkUpdate; rw [h]
  · rintro ⟨e, h⟩; unfold handleTransactionBroadcast; rw [h]
  · intro t h; unfold handleTransactionBroadcast; rw [h]
  · intro h he; subst he; unfold handleTransactionBroadcast; rw [h]; simp
  · intro b h hd hdec hh
    refine ⟨_, by unfold handleBlockBroadcast; rw [hdec]; dsimp only; rw [hh], ?_, ?_⟩
    · cases hd <;> simp
    · intro x; cases hd <;> simp
  · intro f l h hl; unfold handleForkUpdate; rw [h]; dsimp only; rw [hl]

/-- The cases of C71 for transactions: a missing one, and a complete one. -/
example (t : Tx) : ∃ dt : Bytes → Except Err (Option Tx), dt [] = .ok none ∧ dt [1] = .ok (some t) ∧
    handleTransactionBroadcast dt true false [] = none ∧ handleTransactionBroadcast dt true true [] ≠ none ∧
    handleTransactionBroadcast dt true false [1] = some [.publishTransaction (some t)] :=
  ⟨fun d => if d = [] then .ok none else .ok (some t), rfl, rfl, rfl, (by rintro ⟨⟩), rfl⟩

end KP2P

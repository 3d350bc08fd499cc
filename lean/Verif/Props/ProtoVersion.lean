import Verif.Base.Ascii
import Verif.Model.PeerConn
/-!
# C38: reading a peer's protocol version
-/

namespace KP2P
open KP2P.PeerConn KP2P.ProtoVersion

/-- A look-up that decides: a value that is not text, a non-empty text, or a failed look-up that is itself a protocol
mismatch. -/
def Conclusive : Seen → Prop
  | .missing e => e.is .protocolMismatch = true
  | .notText => True
  | .text s => s ≠ []

/-- The version text of an advertised string: what follows the last slash. -/
def VersionText (s v : Bytes) : Prop := ∃ a, s = a ++ 47 :: v ∧ (47 : UInt8) ∉ v

/-- How the strings of this protocol begin. -/
abbrev Ours : Bytes := ascii "koinos/p2p/"

private theorem pfx_eq : pfx = Ours := by decide

/-- What a conclusive value means. -/
inductive Verdict (parse : Bytes → Option Version) : Seen → Except Err Version → Prop
  | failed (e : Err) : e.is .protocolMismatch = true → Verdict parse (.missing e) (.error e)
  | notText : Verdict parse .notText (.error (.sentinel .protocolMismatch))
  | foreign (s : Bytes) : s ≠ [] → ¬ Ours <+: s → Verdict parse (.text s) (.error (.sentinel .protocolMismatch))
  | bad (s v : Bytes) : Ours <+: s → VersionText s v → parse v = none →
      Verdict parse (.text s) (.error (.sentinel .protocolMismatch))
  | good (s v : Bytes) (x : Version) : Ours <+: s → VersionText s v → parse v = some x → Verdict parse (.text s) (.ok x)

private theorem split_no_slash (v : Bytes) (h : (47 : UInt8) ∉ v) : split v = [v] := by
  induction v with
  | nil => rfl
  | cons c v ih =>
    have hc : c ≠ 47 := fun e => h (by rw [e]; exact List.mem_cons_self ..)
    have hv : (47 : UInt8) ∉ v := fun hm => h (List.mem_cons_of_mem _ hm)
    unfold split
    rw [if_neg hc, ih hv]

private theorem split_ne_nil (v : Bytes) : split v ≠ [] := by
  cases v with
  | nil => simp [split]
  | cons c v =>
    unfold split
    split
    · simp
    · split <;> simp

private theorem split_last (a v : Bytes) (h : (47 : UInt8) ∉ v) : (split (a ++ 47 :: v)).getLastD [] = v := by
  have key : ∀ a : Bytes, ∃ l, split (a ++ 47 :: v) = l ++ [v] ∧ l ≠ [] := by
    intro a
    induction a with
    | nil =>
      refine ⟨[[]], ?_, by simp⟩
      show split (47 :: v) = _
      unfold split
      rw [if_pos rfl, split_no_slash v h]; rfl
    | cons c a ih =>
      obtain ⟨l, hl, hne⟩ := ih
      show ∃ l, split (c :: (a ++ 47 :: v)) = l ++ [v] ∧ l ≠ []
      unfold split
      by_cases hc : c = 47
      · rw [if_pos hc, hl]; exact ⟨[] :: l, rfl, by simp⟩
      · rw [if_neg hc, hl]
        cases l with
        | nil => exact absurd rfl hne
        | cons p l => exact ⟨(c :: p) :: l, rfl, by simp⟩
  obtain ⟨l, hl, _⟩ := key a
  rw [hl]; simp

private theorem exists_versionText (s : Bytes) (h : (47 : UInt8) ∈ s) : ∃ v, VersionText s v := by
  induction s with
  | nil => cases h
  | cons c s ih =>
    by_cases hs : (47 : UInt8) ∈ s
    · obtain ⟨v, a, e, hv⟩ := ih hs
      exact ⟨v, c :: a, by rw [e]; rfl, hv⟩
    · rcases List.mem_cons.1 h with h | h
      · exact ⟨s, [], by rw [h]; rfl, hs⟩
      · exact absurd h hs

private theorem versionText_last {s v : Bytes} (h : VersionText s v) : (split s).getLastD [] = v := by
  obtain ⟨a, rfl, hv⟩ := h
  exact split_last a v hv

private theorem get_skip (parse : Bytes → Option Version) (x : Seen) (xs : List Seen) (h : ¬ Conclusive x) :
    get parse (x :: xs) = get parse xs := by
  conv => lhs; unfold ProtoVersion.get
  cases x with
  | missing e =>
    have : e.is .protocolMismatch = false := by simpa [Conclusive] using h
    simp [ProtoVersion.read, this]
  | notText => exact absurd trivial h
  | text s =>
    have : s = [] := by simpa [Conclusive] using h
    subst this; simp [ProtoVersion.read]

private theorem get_decide (parse : Bytes → Option Version) (x : Seen) (xs : List Seen) (r : Except Err Version)
    (h : Verdict parse x r) : get parse (x :: xs) = r := by
  unfold ProtoVersion.get
  cases h with
  | failed e he => simp [ProtoVersion.read, he]
  | notText => simp [ProtoVersion.read]
  | foreign s hne hp =>
    have h1 : 0 < s.length := List.length_pos_iff.2 hne
    rw [← pfx_eq] at hp
    have h2 : pfx.isPrefixOf s = false := by
      cases h : pfx.isPrefixOf s with
      | false => rfl
      | true => exact absurd (List.isPrefixOf_iff_prefix.1 h) hp
    simp [ProtoVersion.read, h1, h2]
  | bad s v hp hv hn =>
    rw [← pfx_eq] at hp
    have h2 : pfx.isPrefixOf s = true := List.isPrefixOf_iff_prefix.2 hp
    have h1 : 0 < s.length := by
      obtain ⟨t, rfl⟩ := hp
      simp [pfx]
    simp only [ProtoVersion.read, h2, if_true, versionText_last hv, hn]
    rw [if_pos h1]
  | good s v x hp hv hn =>
    rw [← pfx_eq] at hp
    have h2 : pfx.isPrefixOf s = true := List.isPrefixOf_iff_prefix.2 hp
    have h1 : 0 < s.length := by
      obtain ⟨t, rfl⟩ := hp
      simp [pfx]
    simp only [ProtoVersion.read, h2, if_true, versionText_last hv, hn]
    rw [if_pos h1]

/-- C38. The result is decided by the first conclusive value, whatever comes later: a value that is not text, a wrong
prefix or an unparsable version is a mismatch, a parsable version is returned. Every conclusive value has a verdict. -/
theorem C38_first_conclusive (parse : Bytes → Option Version) (pre post : List Seen) (x : Seen)
    (hpre : ∀ y ∈ pre, ¬ Conclusive y) (hx : Conclusive x) :
    ∃ r, Verdict parse x r ∧ get parse (pre ++ x :: post) = r := by
  have hv : ∃ r, Verdict parse x r := by
    cases x with
    | missing e => exact ⟨_, .failed e hx⟩
    | notText => exact ⟨_, .notText⟩
    | text s =>
      by_cases hp : Ours <+: s
      · obtain ⟨v, hv⟩ := exists_versionText s (by
          obtain ⟨t, rfl⟩ := hp
          exact List.mem_append_left _ (by decide))
        cases hn : parse v with
        | none => exact ⟨_, .bad s v hp hv hn⟩
        | some y => exact ⟨_, .good s v y hp hv hn⟩
      · exact ⟨_, .foreign s hx hp⟩
  obtain ⟨r, hr⟩ := hv
  refine ⟨r, hr, ?_⟩
  induction pre with
  | nil => exact get_decide parse x post r hr
  | cons y pre ih =>
    show get parse (y :: (pre ++ x :: post)) = r
    rw [get_skip parse y _ (hpre y (List.mem_cons_self ..))]
    exact ih fun z hz => hpre z (List.mem_cons_of_mem _ hz)

/-- C38. The verdict on a value is unique. -/
theorem C38_verdict_unique (parse : Bytes → Option Version) (x : Seen) (r r' : Except Err Version)
    (h : Verdict parse x r) (h' : Verdict parse x r') : r = r' := by
  rw [← get_decide parse x [] r h, get_decide parse x [] r' h']

/-- C38. Without a conclusive value before the time-out the version is reported missing. -/
theorem C38_missing (parse : Bytes → Option Version) (seen : List Seen) (h : ∀ y ∈ seen, ¬ Conclusive y) :
    get parse seen = .error (.sentinel .protocolMissing) := by
  induction seen with
  | nil => rfl
  | cons y seen ih =>
    rw [get_skip parse y _ (h y (List.mem_cons_self ..))]
    exact ih fun z hz => h z (List.mem_cons_of_mem _ hz)

/-- C38. A missing-version answer means that no conclusive value was seen. -/
theorem C38_missing_only (parse : Bytes → Option Version) (seen : List Seen) (e : Err) (he : get parse seen = .error e)
    (hm : e.is .protocolMissing = true) : ∀ y ∈ seen, ¬ Conclusive y := by
  induction seen with
  | nil => simp
  | cons y seen ih =>
    by_cases hy : Conclusive y
    · exfalso
      obtain ⟨r, hr, hg⟩ := C38_first_conclusive parse [] seen y (by simp) hy
      rw [List.nil_append] at hg
      rw [he] at hg
      subst hg
      cases hr with
      | failed _ h =>
        have : ∀ {e : Err} {a b : Sentinel}, e.is a = true → e.is b = true → a = b := by
          intro e a b ha hb
          induction e with
          | sentinel s =>
            simp only [Err.is_sentinel, decide_eq_true_eq] at ha hb; exact ha.symm.trans hb
          | wrap i s ih _ => exact ih ha hb
          | note i ih => exact ih ha hb
          | _ => cases ha
        exact absurd (this h hm) (by decide)
      | _ => cases hm
    · rw [get_skip parse y _ hy] at he
      intro z hz
      rcases List.mem_cons.1 hz with rfl | hz
      · exact hy
      · exact ih he z hz

/-- protocol_version.go:7-9 and 26-28: the string a node advertises, "koinos/p2p/1.0.0". -/
def ownString : Bytes := ascii "koinos/p2p/1.0.0"

/-- C38. A node's own advertised string is accepted: any parser that reads "1.0.0" gives that version. -/
theorem C38_own_accepted (parse : Bytes → Option Version) (v : Version) (hp : parse (ascii "1.0.0") = some v)
    (pre post : List Seen) (hpre : ∀ y ∈ pre, ¬ Conclusive y) :
    get parse (pre ++ .text ownString :: post) = .ok v := by
  obtain ⟨r, hr, hg⟩ := C38_first_conclusive parse pre post (.text ownString) hpre (by show ownString ≠ []; decide)
  rw [hg]
  refine C38_verdict_unique parse _ _ _ hr (.good _ (ascii "1.0.0") v ⟨ascii "1.0.0", by decide⟩ ⟨ascii "koinos/p2p", by decide, by decide⟩ hp)

/-- C38, more than asked: only the text after the last slash counts, so anything between the prefix and that text is
accepted too. -/
theorem C38_middle_ignored (parse : Bytes → Option Version) (mid v : Bytes) (hv : (47 : UInt8) ∉ v) (x : Version)
    (hp : parse v = some x) : get parse [.text (Ours ++ mid ++ 47 :: v)] = .ok x :=
  get_decide parse _ _ _ (.good _ v x ⟨mid ++ 47 :: v, by simp⟩ ⟨Ours ++ mid, rfl, hv⟩ hp)

private def exParse (v : Bytes) : Option Version := if v = [49, 46, 48, 46, 48] then some ⟨1, 0, 0⟩ else none

/- Two inconclusive look-ups, then the own string; and a foreign string. -/
example : get exParse [.missing (.other 0), .text [], .text ownString, .notText] = .ok ⟨1, 0, 0⟩ := by rfl
example : get exParse [.missing (.other 0), .text [1], .text ownString] = .error (.sentinel .protocolMismatch) := by
  rfl

end KP2P

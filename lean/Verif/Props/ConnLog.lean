import Verif.Model.ConnLog
import Mathlib.Data.List.Basic
/-!
# C117: the connection log
-/

namespace KP2P
open KP2P.ConnLog

namespace ConnLog

/-- The connections a report lists. -/
def listed (ls : List Line) : List Conn := ls.filterMap fun l => match l with | .peer c => some c | _ => none

/-- The numbers of further connections it states. -/
def stated (ls : List Line) : List Int := ls.filterMap fun l => match l with | .more n => some n | _ => none

theorem peerLines_few (later : Nat) : ∀ (cs : List Conn) (i : Nat), i + cs.length ≤ 11 → peerLines later i cs = cs.map .peer
  | [], _, _ => rfl
  | c :: cs, i, h => by
    simp only [List.length_cons] at h
    rw [peerLines, if_neg (by omega), peerLines_few later cs (i + 1) (by omega)]; rfl

theorem peerLines_many (later : Nat) : ∀ (cs : List Conn) (i : Nat), i ≤ 11 → 12 ≤ i + cs.length →
    peerLines later i cs = (cs.take (12 - i)).map .peer ++ [.more ((later : Int) - 11)]
  | [], i, hi, h => by simp at h; omega
  | c :: cs, i, hi, h => by
    simp only [List.length_cons] at h
    by_cases h11 : i = 11
    · subst h11; rw [peerLines, if_pos (by decide)]; rfl
    · rw [peerLines, if_neg (by omega), peerLines_many later cs (i + 1) (by omega) (by omega)]
      have : 12 - i = (12 - (i + 1)) + 1 := by omega
      rw [this, List.take_succ_cons]; rfl

theorem listed_peers (cs : List Conn) (rest : List Line) : listed (cs.map .peer ++ rest) = cs ++ listed rest := by
  induction cs with
  | nil => rfl
  | cons c cs ih => simpa [listed] using ih

theorem stated_peers (cs : List Conn) (rest : List Line) : stated (cs.map .peer ++ rest) = stated rest := by
  induction cs with
  | nil => rfl
  | cons c cs ih => simpa [stated] using ih

end ConnLog

/-- **C117.** A node with fewer than twelve connections lists them all, in order, and states no further ones. -/
theorem C117_few {addrs : List MAddr} {conns later : List Conn} {ls : List Line} (h : report addrs conns later = some ls)
    (hn : conns.length < 12) : listed ls = conns ∧ stated ls = [] := by
  simp only [report] at h
  split at h
  · cases h
  · cases h
    rw [peerLines_few _ _ _ (by omega)]
    have h1 := listed_peers conns []
    have h2 := stated_peers conns []
    simp only [List.append_nil] at h1 h2
    exact ⟨by simpa [listed] using h1, by simpa [stated] using h2⟩

/-- **C117.** A node with twelve or more connections lists the first twelve and then states one number. -/
theorem C117_many {addrs : List MAddr} {conns later : List Conn} {ls : List Line} (h : report addrs conns later = some ls)
    (hn : 12 ≤ conns.length) : listed ls = conns.take 12 ∧ stated ls = [(later.length : Int) - 11] := by
  simp only [report] at h
  split at h
  · cases h
  · cases h
    rw [peerLines_many _ _ _ (by omega) (by omega)]
    exact ⟨by simpa [listed] using listed_peers (conns.take 12) [.more ((later.length : Int) - 11)],
      by simpa [stated] using stated_peers (conns.take 12) [.more ((later.length : Int) - 11)]⟩

/-- **C117.** Every report begins with the host's first address. -/
theorem C117_own {addrs : List MAddr} {conns later : List Conn} {ls : List Line} (h : report addrs conns later = some ls) :
    ∃ a rest, addrs.head? = some a ∧ ls = .own a :: rest := by
  simp only [report, getAddress] at h
  split at h
  · cases h
  · rename_i a ha; cases h; exact ⟨a, _, by rw [List.head?_eq_getElem?]; exact ha, rfl⟩

/-- **C117 (refuted, for all connections).** The numbers do not add up: with twelve or more connections, all there
throughout, the report accounts for one more than there are. With exactly twelve it lists all and says "and 1 more". -/
theorem C117_adds_up_refuted {addrs : List MAddr} {conns : List Conn} {ls : List Line} (h : report addrs conns conns = some ls)
    (hn : 12 ≤ conns.length) : (listed ls).length + (stated ls).sum = (conns.length : Int) + 1 := by
  obtain ⟨h1, h2⟩ := C117_many h hn
  rw [h1, h2, List.length_take]
  simp only [List.sum_cons, List.sum_nil]
  omega

/-- **C117 (refuted).** If connections are closed while the report is made, the number stated may be negative. -/
theorem C117_negative_refuted : ∃ (addrs : List MAddr) (conns later : List Conn) (ls : List Line),
    report addrs conns later = some ls ∧ stated ls = [-11] :=
  ⟨[⟨[1], []⟩], List.replicate 12 ⟨[2], ⟨[3], []⟩, 0⟩, [], _, rfl, by decide⟩

/-- **C117 (refuted, for all connections).** A host without address makes the report, and with it the process, panic. -/
theorem C117_panic_refuted (conns later : List Conn) : report [] conns later = none := rfl

/-- **C117.** Otherwise it does not panic. -/
theorem C117_safe {addrs : List MAddr} (h : addrs ≠ []) (conns later : List Conn) : (report addrs conns later).isSome = true := by
  cases addrs with
  | nil => exact absurd rfl h
  | cons a r => rfl

/-- Reports of two and of thirteen connections. -/
example : (report [⟨[1], []⟩] (List.replicate 2 ⟨[2], ⟨[3], []⟩, 0⟩) []).map stated = some [] ∧
    (report [⟨[1], []⟩] (List.replicate 13 ⟨[2], ⟨[3], []⟩, 0⟩) (List.replicate 13 ⟨[2], ⟨[3], []⟩, 0⟩)).map
      (fun l => ((listed l).length, stated l)) = some (12, [2]) := by decide

end KP2P

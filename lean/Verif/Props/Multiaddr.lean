import Verif.Base.Ascii
import Verif.Spec.Multiaddr
import Verif.Props.ErrorHandler
/-!
# C116: errors concern the host they come from
-/

namespace KP2P
open KP2P.Addr KP2P.Spec.Addr KP2P.Spec ErrHandler

namespace Addr

theorem name_no_slash (p : Proto) : (47 : UInt8) ∉ p.name := by cases p <;> decide

theorem name_inj {p q : Proto} (h : p.name = q.name) : p = q := by
  revert h; cases p <;> cases q <;> decide

/-- What stands before the first slash can be read off. -/
theorem before_slash : ∀ {x y v w : Bytes}, (47 : UInt8) ∉ x → (47 : UInt8) ∉ y → x ++ 47 :: v = y ++ 47 :: w → x = y ∧ v = w
  | [], [], v, w, _, _, h => by simpa using h
  | [], b :: y, v, w, _, hy, h => by
    simp only [List.nil_append, List.cons_append, List.cons.injEq] at h
    exact absurd (by rw [h.1]; simp) hy
  | a :: x, [], v, w, hx, _, h => by
    simp only [List.nil_append, List.cons_append, List.cons.injEq] at h
    exact absurd (by rw [← h.1]; simp) hx
  | a :: x, b :: y, v, w, hx, hy, h => by
    simp only [List.cons_append, List.cons.injEq] at h
    obtain ⟨h1, h2⟩ := before_slash (by simp at hx; exact hx.2) (by simp at hy; exact hy.2) h.2
    exact ⟨by rw [h.1, h1], h2⟩

theorem namesHost_valued {p : Proto} (h : NamesHost p) : p.valued = true := by
  rcases h with h | h | h | h | h | h <;> subst h <;> rfl

/-- The text of a component determines it. -/
theorem text_inj {c d : Comp} (hc : c.proto.valued = true) (hd : d.proto.valued = true) (h : c.text = d.text) : c = d := by
  simp only [Comp.text, hc, hd, if_true, List.cons_append, List.cons.injEq, true_and] at h
  obtain ⟨h1, h2⟩ := before_slash (name_no_slash _) (name_no_slash _) h
  cases c; cases d
  simp only at h1 h2
  rw [name_inj h1, h2]

theorem plain_host {a : List Comp} (h : Plain a) : ∃ c rest, a = c :: rest ∧ NamesHost c.proto ∧
    hostOf a = some ⟨none, c.proto, c.value⟩ := by
  obtain ⟨c, rest, rfl, hn, hr⟩ := h
  refine ⟨c, rest, rfl, hn, ?_⟩
  have : (c :: rest).any (fun x => x.proto == .circuit) = false := by
    rw [List.any_eq_false]; intro x hx; simpa using hr x hx
  simp only [hostOf, this, Bool.false_eq_true, if_false, if_pos hn]

end Addr

/-- **C116 (partial).** Two addresses that begin with a network address or a name share an error score exactly if they lead
to the same host: ports, transports and peer ids make no difference. Missing: relayed connections and zones
(`C116_relay_refuted`, `C116_zone_refuted`). -/
theorem C116_same_score_partial {a b : List Comp} (ha : Plain a) (hb : Plain b) : key a = key b ↔ hostOf a = hostOf b := by
  obtain ⟨c, r, rfl, hc, h1⟩ := plain_host ha
  obtain ⟨d, q, rfl, hd, h2⟩ := plain_host hb
  rw [h1, h2]
  simp only [key, Option.some.injEq, Host.mk.injEq, true_and]
  constructor
  · intro h; rw [text_inj (namesHost_valued hc) (namesHost_valued hd) h]; exact ⟨rfl, rfl⟩
  · rintro ⟨h3, h4⟩; cases c; cases d; simp only at h3 h4; rw [h3, h4]
/-- **C116 (partial).** What the scores are kept by is the text of the first component of
the address: the protocol's name and the value, between slashes. -/
theorem C116_key_partial (v : Bytes) (rest : List Comp) :
    key (⟨.ip4, v⟩ :: rest) = some (ascii "/ip4/" ++ v) ∧ key (⟨.ip6, v⟩ :: rest) = some (ascii "/ip6/" ++ v) ∧
    key (⟨.ip6zone, v⟩ :: rest) = some (ascii "/ip6zone/" ++ v) ∧ key (⟨.dns, v⟩ :: rest) = some (ascii "/dns/" ++ v) ∧
    key (⟨.dns4, v⟩ :: rest) = some (ascii "/dns4/" ++ v) ∧ key (⟨.dns6, v⟩ :: rest) = some (ascii "/dns6/" ++ v) ∧
    key (⟨.dnsaddr, v⟩ :: rest) = some (ascii "/dnsaddr/" ++ v) ∧ key (⟨.p2p, v⟩ :: rest) = some (ascii "/p2p/" ++ v) :=
  ⟨rfl, rfl, rfl, rfl, rfl, rfl, rfl, rfl⟩

/-- The events of a history concern hosts other than `a`'s, at plain addresses. -/
def Elsewhere (a : List Comp) (mid : List (Int × Event)) : Prop :=
  ∀ e ∈ mid, ∃ b m, Plain b ∧ seen b = some m ∧ hostOf b ≠ hostOf a ∧
    ((∃ p x, e.2 = .perr p (some m) x) ∨ e.2 = .canConnect m ∨ e.2 = .getScore m)

/-- **C116 (partial).** Whatever errors come from other hosts, and whatever is asked about them, changes neither the score
of a host nor whether one may connect to it nor whether its errors lead to a disconnection. -/
theorem C116_others_partial (d : Decay) (o : ErrOpts) (h₁ h₂ mid : List (Int × Event)) {a : List Comp} {m : MAddr} (t : Int)
    (ha : Plain a) (hm : seen a = some m) (hmid : Elsewhere a mid) :
    (∀ p e, ((new.run d o (h₁ ++ mid ++ h₂)).handle d o t (.perr p (some m) e)).2 =
      ((new.run d o (h₁ ++ h₂)).handle d o t (.perr p (some m) e)).2) ∧
    ((new.run d o (h₁ ++ mid ++ h₂)).handle d o t (.canConnect m)).2 = ((new.run d o (h₁ ++ h₂)).handle d o t (.canConnect m)).2 ∧
    ((new.run d o (h₁ ++ mid ++ h₂)).handle d o t (.getScore m)).2 = ((new.run d o (h₁ ++ h₂)).handle d o t (.getScore m)).2 := by
  apply C23_isolation
  have : entriesFor o m.ip mid = [] := by
    unfold entriesFor
    rw [List.filterMap_eq_nil_iff]
    intro e he
    obtain ⟨b, x, hb, hx, hne, hcase⟩ := hmid e he
    have hk : ¬ x.ip = m.ip := by
      intro hk
      apply hne
      rw [← C116_same_score_partial hb ha]
      obtain ⟨c, r, rfl, _⟩ := plain_host hb
      obtain ⟨c', r', rfl, _⟩ := plain_host ha
      simp only [seen, Option.some.injEq] at hx hm
      subst hx; subst hm
      simpa [key] using hk
    rcases hcase with ⟨p, y, h⟩ | h | h <;> simp [h, Event.entryFor, hk]
  simp [entriesFor_append, this]

/-- Errors concern the host they come from: an error of a peer whose address does not lead to the host of address `b` does
not make the node refuse `b`. -/
def OwnHostOnly (d : Decay) (o : ErrOpts) : Prop :=
  ∀ (a b : List Comp) (ma mb : MAddr) (p : Bytes) (e : Err) (t : Int), seen a = some ma → seen b = some mb →
    hostOf b ≠ none → hostOf a ≠ hostOf b →
    ((new.run d o [(t, .perr p (some ma) e)]).handle d o t (.canConnect mb)).2 = .allowed true

namespace Addr

theorem shared_refused {d : Decay} (hd : ∀ s, d 0 s = s) (p : Bytes) (e : Err) (s : Sentinel) (hs : s ∈ severe) (he : e.is s = true)
    (t : Int) (m m' : MAddr) (hip : m.ip = m'.ip) :
    ((new.run d .default [(t, .perr p (some m) e)]).handle d .default t (.canConnect m')).2 = .allowed false := by
  rw [reaction_canConnect, bal_new_run]
  have hen : entriesFor .default m'.ip [(t, Event.perr p (some m) e)] = [(t, .charge 200000)] := by
    simp [entriesFor, Event.entryFor, score_severe e s hs he, hip]
  rw [hen]
  have hb : balance d [(t, .charge 200000)] = some (t, 200000) := rfl
  rw [hb]
  simp only [Balance.at, Option.map_some, Int.sub_self, hd]
  decide +kernel

end Addr

/-- **C116 (refuted, for every relay).** A severe error of a peer behind a relay makes the node refuse the relay itself (and
with it every other peer behind it), whatever the relay's address; with the relays of node.go:101 these are the seed peers. -/
theorem C116_relay_banned_refuted {d : Decay} (hd : ∀ s, d 0 s = s) (e : Err) (s : Sentinel) (hs : s ∈ severe)
    (he : e.is s = true) (t : Int) (p relay : Bytes) (r : List Comp) (m m' : MAddr) (hr : seen r = some m)
    (ha : seen (relayed r relay) = some m') :
    ((new.run d .default [(t, .perr p (some m') e)]).handle d .default t (.canConnect m)).2 = .allowed false := by
  apply shared_refused hd p e s hs he
  cases r with
  | nil => simp [seen] at hr
  | cons c rest =>
    simp only [seen, relayed, List.cons_append, Option.some.injEq] at hr ha
    subst hr; subst ha; rfl

/-- **C116 (refuted).** So errors do not concern only the host they come from: relays. -/
theorem C116_relay_refuted {d : Decay} (hd : ∀ s, d 0 s = s) : ¬ OwnHostOnly d .default := by
  intro h
  have h1 := h (relayed [⟨.ip4, [49]⟩, ⟨.tcp, [56]⟩] [82]) [⟨.ip4, [49]⟩, ⟨.tcp, [56]⟩] _ _ [88] (.sentinel .forkBomb) 0 rfl rfl
    (by decide) (by decide)
  have h2 := h1.symm.trans (C116_relay_banned_refuted hd (.sentinel .forkBomb) .forkBomb (by decide) rfl 0 [88] [82]
    [⟨.ip4, [49]⟩, ⟨.tcp, [56]⟩] _ _ rfl rfl)
  cases h2

/-- **C116 (refuted).** Two hosts on one link (`/ip6zone/e/ip6/…`, the addresses of link-local IPv6) share one score. -/
theorem C116_zone_refuted {d : Decay} (hd : ∀ s, d 0 s = s) : ¬ OwnHostOnly d .default := by
  intro h
  have h1 := h [⟨.ip6zone, [101]⟩, ⟨.ip6, [49]⟩, ⟨.tcp, [56]⟩] [⟨.ip6zone, [101]⟩, ⟨.ip6, [50]⟩, ⟨.tcp, [56]⟩] _ _ [88]
    (.sentinel .forkBomb) 0 rfl rfl (by decide) (by decide)
  have h2 := h1.symm.trans (shared_refused hd [88] (.sentinel .forkBomb) .forkBomb (by decide) rfl 0 _ _ rfl)
  cases h2

/-! ### Examples -/

/-- Same host, other port and transport; another host; the same digits as a name. -/
example : Plain [⟨.ip4, [49]⟩, ⟨.tcp, [56]⟩] ∧ Plain [⟨.ip4, [49]⟩, ⟨.udp, [57]⟩, ⟨.quicv1, []⟩] ∧ Plain [⟨.dns4, [49]⟩] ∧
    key [⟨.ip4, [49]⟩, ⟨.tcp, [56]⟩] = key [⟨.ip4, [49]⟩, ⟨.udp, [57]⟩, ⟨.quicv1, []⟩] ∧
    key [⟨.ip4, [49]⟩, ⟨.tcp, [56]⟩] ≠ key [⟨.dns4, [49]⟩] :=
  ⟨⟨_, _, rfl, by decide, by decide⟩, ⟨_, _, rfl, by decide, by decide⟩, ⟨_, _, rfl, by decide, by decide⟩, by decide, by decide⟩

/-- The hypotheses of `C116_others_partial` can be met. -/
example : ∃ m, seen [⟨.ip4, [49]⟩, ⟨.tcp, [56]⟩] = some m ∧
    Elsewhere [⟨.ip4, [49]⟩, ⟨.tcp, [56]⟩] [(3, .perr [7] (seen [⟨.ip4, [50]⟩]) (.sentinel .forkBomb))] := by
  refine ⟨_, rfl, fun e he => ?_⟩
  simp only [List.mem_singleton] at he
  subst he
  exact ⟨[⟨.ip4, [50]⟩], _, ⟨_, _, rfl, by decide, by decide⟩, rfl, by decide, .inl ⟨_, _, rfl⟩⟩

end KP2P

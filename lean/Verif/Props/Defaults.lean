import Verif.Props.ErrorHandler
/-!
# C72: what the default options mean
-/

namespace KP2P
open KP2P.Spec KP2P.ErrHandler

namespace Spec

/-- The default tariff, in points per error; 100000 points disconnect. -/
def price : Option Sentinel → Nat
  | some .chainIDMismatch | some .chainNotConnected | some .checkpointMismatch | some .forkBomb
  | some .protocolMismatch => 200000
  | some .deserialization | some .blockApplication | some .maxHeight | some .peerRPC => 5000
  | some .peerRPCTimeout => 3500
  | some .unknownPreviousBlock | some .blockApplicationTimeout => 2500
  | some .maxPendingBlocks => 1000
  | some .blockIrreversibility | some .transactionApplication => 100
  | some .localRPC | some .localRPCTimeout | some .serialization | some .processRequestTimeout
  | some .invalidNonce => 0
  | some .blockState | some .protocolMissing | none => 5000

/-- The errors that are not the peer's fault. -/
def Free (e : Err) : Prop :=
  e.is .localRPC ∨ e.is .localRPCTimeout ∨ e.is .serialization ∨ e.is .processRequestTimeout ∨ e.is .invalidNonce

end Spec

/-- C72. The default price of every error. -/
theorem C72_tariff (e : Err) : (getScoreForError .default e).toNat = price e.root := by
  rw [C29_classification]
  cases e.root with
  | none => decide +kernel
  | some s => cases s <;> decide +kernel

private theorem free_price (e : Err) (h : Free e) : getScoreForError .default e = 0 := by
  rw [← UInt64.toNat_inj, C72_tariff]
  unfold Free at h
  simp only [Err.is_eq_root, decide_eq_true_eq] at h
  rcases h with h | h | h | h | h <;> rw [h] <;> rfl

private theorem free_total (ip : Bytes) (hist : List (Int × Event))
    (h : ∀ t p a e, (t, Event.perr p (some a) e) ∈ hist → a.ip = ip → Free e) :
    totalCharged (entriesFor .default ip hist) = 0 := by
  induction hist with
  | nil => rfl
  | cons x hist ih =>
    have ih := ih fun t p a e hm => h t p a e (List.mem_cons_of_mem _ hm)
    have hx : entriesFor .default ip (x :: hist) = entriesFor .default ip [x] ++ entriesFor .default ip hist := by
      rw [← entriesFor_append]; rfl
    rw [hx, totalCharged_append, ih]
    obtain ⟨t, ev⟩ := x
    cases ev with
    | perr p a e =>
      cases a with
      | none => rfl
      | some a =>
        by_cases hip : a.ip = ip
        · have := free_price e (h t p a e (List.mem_cons_self ..) hip)
          simp [entriesFor, Event.entryFor, hip, this, totalCharged]
        · simp [entriesFor, Event.entryFor, hip, totalCharged]
    | canConnect a => by_cases hip : a.ip = ip <;> simp [entriesFor, Event.entryFor, hip, totalCharged]
    | getScore a => by_cases hip : a.ip = ip <;> simp [entriesFor, Event.entryFor, hip, totalCharged]

/-- C72. With default options, an address that was only ever charged for failures of this node itself is always admitted,
has score 0, and one more such failure does not disconnect it. -/
theorem C72_own_failures_free (d : Decay) (hd : d.NonIncreasing) (hist : List (Int × Event)) (t : Int) (p : Bytes) (a : MAddr)
    (ho : InOrder (entriesFor .default a.ip hist ++ [(t, .read)]))
    (h : ∀ t p b e, (t, Event.perr p (some b) e) ∈ hist → b.ip = a.ip → Free e) :
    ((new.run d .default hist).handle d .default t (.canConnect a)).2 = .allowed true ∧
    ((new.run d .default hist).handle d .default t (.getScore a)).2 = .score 0 ∧
    ∀ e, Free e → ((new.run d .default hist).handle d .default t (.perr p (some a) e)).2 = .disconnect none := by
  have ht := free_total a.ip hist h
  have hz : ((balance d (entriesFor .default a.ip hist)).at d t).getD 0 = 0 := by
    have := balance_at_le d hd _ t ho
    rw [ht] at this
    exact UInt64.toNat_inj.1 (Nat.le_zero.1 this)
  refine ⟨?_, ?_, ?_⟩
  · rw [reaction_canConnect, bal_new_run]
    cases hb : (balance d (entriesFor .default a.ip hist)).at d t with
    | none => rfl
    | some s =>
      rw [hb] at hz
      obtain rfl : s = 0 := hz
      decide +kernel
  · rw [reaction_getScore, bal_new_run, hz]
  · intro e he
    rw [reaction_perr, bal_new_run, hz, free_price e he, if_neg (by decide +kernel)]

private theorem repeat_balance (d : Decay) (hd : ∀ s, d 0 s = s) (t : Int) (p : Bytes) (a : MAddr) (e : Err) (n : Nat) :
    ((balance d (entriesFor .default a.ip ((List.replicate n (t, Event.perr p (some a) e))))).at d t).getD 0 =
      UInt64.ofNat (n * price e.root) := by
  induction n with
  | zero => simp [entriesFor, balance, balanceFrom, Balance.at]
  | succ n ih =>
    rw [List.replicate_succ', entriesFor_append]
    have h1 : entriesFor .default a.ip [(t, Event.perr p (some a) e)] = [(t, .charge (getScoreForError .default e))] := by
      simp [entriesFor, Event.entryFor]
    have h2 : getScoreForError .default e = UInt64.ofNat (price e.root) := by
      rw [← C72_tariff]; simp
    rw [h1, balance_snoc]
    have post : ∀ b : Balance, ((b.post d t (.charge (getScoreForError .default e))).at d t).getD 0 =
        (b.at d t).getD 0 + UInt64.ofNat (price e.root) := by
      intro b
      unfold Balance.post
      cases b.at d t with
      | none => simp [Balance.at, hd, h2]
      | some s => simp [Balance.at, hd, h2]
    rw [post, ih, Nat.succ_mul, UInt64.ofNat_add]

/-- C72. How many errors of one kind in a row are tolerated: with default options, after `n` errors of a kind at one
instant, the next one of that kind disconnects iff `(n+1) · price` reaches 100000 (as long as that does not exceed 64
bits). -/
theorem C72_tolerance (d : Decay) (hd : ∀ s, d 0 s = s) (t : Int) (p : Bytes) (a : MAddr) (e : Err) (n : Nat)
    (hn : (n + 1) * 200000 < 2 ^ 64) :
    ((new.run d .default (List.replicate n (t, .perr p (some a) e))).handle d .default t (.perr p (some a) e)).2 =
      .disconnect (if 100000 ≤ (n + 1) * price e.root then some p else none) := by
  have h2 : getScoreForError .default e = UInt64.ofNat (price e.root) := by
    rw [← C72_tariff]; simp
  have hp : price e.root ≤ 200000 := by
    cases e.root with
    | none => decide
    | some s => cases s <;> decide
  rw [C24_disconnect_iff, repeat_balance d hd, h2, ← UInt64.ofNat_add, ← Nat.succ_mul]
  have hle : (n + 1) * price e.root ≤ (n + 1) * 200000 := Nat.mul_le_mul_left _ hp
  have h3 : (UInt64.ofNat ((n + 1) * price e.root)).toNat = (n + 1) * price e.root := by
    rw [UInt64.toNat_ofNat']; exact Nat.mod_eq_of_lt (by omega)
  have h4 : ErrOpts.default.threshold.toNat = 100000 := by decide +kernel
  have h5 : (ErrOpts.default.threshold ≤ UInt64.ofNat ((n + 1) * price e.root)) ↔ 100000 ≤ (n + 1) * price e.root := by
    rw [UInt64.le_iff_toNat_le, h3, h4]
  simp only [Nat.succ_eq_add_one, h5]

/-- The exact decay law leaves a score unchanged when no time has passed. -/
theorem realDecay_now (h : Int) (s : UInt64) : realDecay h 0 s = s := by
  unfold realDecay
  simp

/-- C72. With default options a single severe error of a fresh address is held against it for exactly one hour. -/
theorem C72_one_hour (t0 t : Int) (ht : t0 ≤ t) (p : Bytes) (a : MAddr) (e : Err) (s : Sentinel) (hs : s ∈ severe)
    (he : e.is s = true) :
    let d := realDecay ErrOpts.default.halflife
    ((new.run d .default [(t0, .perr p (some a) e)]).handle d .default t (.canConnect a)).2 =
      .allowed (decide (3600 * 1000000000 < t - t0)) := by
  have h := C26_ban_exact [] t0 t ht p a e s hs he rfl
  have hh : 2 * ErrOpts.default.halflife = 3600 * 1000000000 := by decide +kernel
  rw [hh] at h
  exact h

/- Twenty failed blocks in a row disconnect, nineteen do not. -/
example : ((new.run noDecay .default (List.replicate 19 (0, .perr [7] (some ⟨[1], []⟩) (.sentinel .blockApplication)))).handle
    noDecay .default 0 (.perr [7] (some ⟨[1], []⟩) (.sentinel .blockApplication))).2 = .disconnect (some [7]) :=
  C72_tolerance noDecay (fun _ => rfl) 0 [7] ⟨[1], []⟩ _ 19 (by decide)
example : ((new.run noDecay .default (List.replicate 18 (0, .perr [7] (some ⟨[1], []⟩) (.sentinel .blockApplication)))).handle
    noDecay .default 0 (.perr [7] (some ⟨[1], []⟩) (.sentinel .blockApplication))).2 = .disconnect none :=
  C72_tolerance noDecay (fun _ => rfl) 0 [7] ⟨[1], []⟩ _ 18 (by decide)
example : Free (wrapS .localRPC (.other 3)) := .inl rfl

end KP2P

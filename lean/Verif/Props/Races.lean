import Verif.Proof.RacesLocks
/-!
# C129, C130: data races and mutexes
-/

namespace KP2P
open KP2P.Races KP2P.Spec.Races

/-! ### C129: the goroutines of a node do not race -/

/-- Whatever number of goroutines of every kind, however they interleave: two accesses to the same memory, one of which
writes and not both of which are atomic, are ordered, for all memory but the three fields below. The order needs no atomic
operation. Missing from the full claim: these three fields, for which it is false. -/
theorem C129_race_free_partial {tr : List Ev} (h : Exec tr) {f : Field} (h₁ : f ≠ .gossipCancel) (h₂ : f ≠ .addrProvider)
    (h₃ : f ≠ .mgrAddrChan) : ¬ Race false tr f := by
  refine race_free (fine_of_exec h) ?_
  cases f <;> simp only [cls, ne_eq, reduceCtorEq, not_false_eq_true, not_true] <;> contradiction

namespace RacesEx

/-- The goroutines started by the first one, numbered from 1. -/
def start : List Op := construct (fun i => i + 1) []

def at' (t : Tid) (os : List Op) : List Ev := os.map (fun o => (t, o))

theorem prog_start : Prog .main start := by
  have := Prog.call (.nil (k := .main)) (.construct (fun i => i + 1) [])
  exact this

/-- Close up to the use of the cancel function, and the toggle switching gossip on. -/
def cancelTrace : List Ev :=
  at' 0 start ++ at' 0 ([.acc .rd .nodeParts, .acc .rd .gossipConst] ++ topicStop false false ++ topicStop true false) ++
  at' 6 [.acc .rd .toggleEnabled, .acc .rd .gossipConst, .acc .wr .gossipCancel] ++ at' 0 [.acc .rd .gossipCancel]

theorem cancel_exec : Exec cancelTrace := by
  have hmain : Prog .main (start ++ ([.acc .rd .nodeParts] ++ stopGossip false false false ++ [.acc .rd .nodeParts])) :=
    .call prog_start (.close (by decide) false false false)
  have htog : Prog .toggle ([] ++ ([.acc .rd .toggleEnabled] ++ startGossip 20 21 22 ++ setEnabled)) := .call .nil (.toggleOn 20 21 22)
  refine exec_of cancelTrace [(0, .main, start ++ ([.acc .rd .nodeParts] ++ stopGossip false false false ++ [.acc .rd .nodeParts])),
    (6, .toggle, [] ++ ([.acc .rd .toggleEnabled] ++ startGossip 20 21 22 ++ setEnabled))] (by decide +kernel) (by decide +kernel) ?_
  intro p hp
  simp only [List.mem_cons, List.not_mem_nil, or_false] at hp
  rcases hp with rfl | rfl
  · exact ⟨by decide +kernel, by decide +kernel, hmain⟩
  · exact ⟨by decide +kernel, by decide +kernel, htog⟩

/-- The connection manager is being made while libp2p, which listens already, asks the gater. -/
def providerTrace : List Ev :=
  at' 0 (start.take 35) ++ at' 1 [.acc .rd .nodeHandler, .acc .rd .addrProvider] ++ at' 0 [.acc .wr .addrProvider]

theorem provider_exec : Exec providerTrace := by
  have hg : Prog .gater ([] ++ [.acc .rd .nodeHandler, .acc .rd .addrProvider, .acc .rd .mgrAddrChan, .acc .rd .handlerConst]) := .call .nil .gaterPeer
  refine exec_of providerTrace [(0, .main, start), (1, .gater, [] ++ [.acc .rd .nodeHandler, .acc .rd .addrProvider, .acc .rd .mgrAddrChan, .acc .rd .handlerConst])] (by decide +kernel) (by decide +kernel) ?_
  intro p hp
  simp only [List.mem_cons, List.not_mem_nil, or_false] at hp
  rcases hp with rfl | rfl
  · exact ⟨by decide +kernel, by decide +kernel, prog_start⟩
  · exact ⟨by decide +kernel, by decide +kernel, hg⟩

/-- The gater finds the connection manager, and uses its channel. -/
def channelTrace : List Ev :=
  at' 0 (start.take 36) ++ at' 1 [.acc .rd .nodeHandler, .acc .rd .addrProvider, .acc .rd .mgrAddrChan]

theorem channel_exec : Exec channelTrace := by
  have hg : Prog .gater ([] ++ [.acc .rd .nodeHandler, .acc .rd .addrProvider, .acc .rd .mgrAddrChan, .acc .rd .handlerConst]) := .call .nil .gaterPeer
  refine exec_of channelTrace [(0, .main, start), (1, .gater, [] ++ [.acc .rd .nodeHandler, .acc .rd .addrProvider, .acc .rd .mgrAddrChan, .acc .rd .handlerConst])] (by decide +kernel) (by decide +kernel) ?_
  intro p hp
  simp only [List.mem_cons, List.not_mem_nil, or_false] at hp
  rcases hp with rfl | rfl
  · exact ⟨by decide +kernel, by decide +kernel, prog_start⟩
  · exact ⟨by decide +kernel, by decide +kernel, hg⟩

/-- A block from gossip: the toggle (6) switches gossip on, a validator (24) hands the block to the loop (8), whose attempt
(25) goes to a worker (9). -/
def blockTrace : List Ev :=
  at' 0 (construct (fun i => if i < 8 then i + 1 else 10) [9]) ++
  at' 6 ([.acc .rd .toggleEnabled] ++ startGossip 20 21 22 ++ setEnabled) ++
  at' 20 ([.acc .rd .gossipConst, .acc .rd (.topicConst false), .fork 23 (.validators false)] ++ topicStart false false) ++
  at' 23 [.fork 24 (.validator false 7)] ++
  at' 24 ([.new (.blob 7), .acc .rd .gossipConst, .freeze (.blob 7), .acc .rd (.blob 7), .acc .ald .libValue] ++ applyBlock 7 0 ++
    [.acc .rd (.blob 7), .acc .rd .gossipConst]) ++
  at' 8 ([.acc .rd .appConst, .recv ⟨.newBlock, 0, 7⟩, .acc .rd (.entry 7), .acc .rd (.blob 7), .acc .rd .tables, .acc .rd .lib,
    .acc .wr (.entry 7), .acc .wr .tables, .fork 25 (.tryer 7)]) ++
  at' 25 [.acc .rd .appConst, .acc .rd (.blob 7), .send ⟨.applyBlock, 0, 7⟩] ++
  at' 9 [.acc .rd .appConst, .recv ⟨.applyBlock, 0, 7⟩, .acc .rd (.blob 7), .acc .ald .lib]

theorem block_exec : Exec blockTrace := by
  have h0 : Prog .main ([] ++ construct (fun i => if i < 8 then i + 1 else 10) [9]) := .call .nil (.construct _ _)
  have h6 : Prog .toggle ([] ++ ([.acc .rd .toggleEnabled] ++ startGossip 20 21 22 ++ setEnabled)) := .call .nil (.toggleOn 20 21 22)
  have h20 : Prog (.starter false) ([] ++ ([.acc .rd .gossipConst, .acc .rd (.topicConst false), .fork 23 (.validators false)] ++
    topicStart false false)) := .call .nil (.starter false 23 false)
  have h23 : Prog (.validators false) ([] ++ [.fork 24 (.validator false 7)]) := .call .nil (.validators false 24 7)
  have h24 : Prog (.validator false 7) ([] ++ ([.new (.blob 7), .acc .rd .gossipConst, .freeze (.blob 7), .acc .rd (.blob 7), .acc .ald .libValue] ++
    applyBlock 7 0 ++ [.acc .rd (.blob 7), .acc .rd .gossipConst])) := .call .nil (.validateBlock 7 0)
  have h8 : Prog .appLoop ([] ++ ([.acc .rd .appConst, .recv ⟨.newBlock, 0, 7⟩, .acc .rd (.entry 7), .acc .rd (.blob 7), .acc .rd .tables, .acc .rd .lib,
    .acc .wr (.entry 7)] ++ ([] : List Nat).map (fun o => Op.acc .wr (.entry o)) ++ [.acc .wr .tables, .fork 25 (.tryer 7)])) :=
    .call .nil (.appNew 7 0 25 [] (by simp))
  have h25 : Prog (.tryer 7) ([] ++ [.acc .rd .appConst, .acc .rd (.blob 7), .send ⟨.applyBlock, 0, 7⟩]) :=
    .call .nil (.tryerSend 7 0 .applyBlock (.inr (.inl rfl)))
  have h9 : Prog .worker ([] ++ [.acc .rd .appConst, .recv ⟨.applyBlock, 0, 7⟩, .acc .rd (.blob 7), .acc .ald .lib, .acc .rd (.blob 7)]) :=
    .call .nil (.workBlock 7 0)
  refine exec_of blockTrace [(0, .main, hist 0 blockTrace), (6, .toggle, hist 6 blockTrace), (20, .starter false, hist 20 blockTrace),
    (23, .validators false, hist 23 blockTrace), (24, .validator false 7, hist 24 blockTrace), (8, .appLoop, hist 8 blockTrace),
    (25, .tryer 7, hist 25 blockTrace), (9, .worker, hist 9 blockTrace ++ [.acc .rd (.blob 7)])] (by decide +kernel) (by decide +kernel) ?_
  intro p hp
  simp only [List.mem_cons, List.not_mem_nil, or_false] at hp
  rcases hp with rfl | rfl | rfl | rfl | rfl | rfl | rfl | rfl
  · exact ⟨by decide +kernel, List.prefix_refl _, h0⟩
  · exact ⟨by decide +kernel, List.prefix_refl _, h6⟩
  · exact ⟨by decide +kernel, List.prefix_refl _, h20⟩
  · exact ⟨by decide +kernel, List.prefix_refl _, h23⟩
  · exact ⟨by decide +kernel, List.prefix_refl _, h24⟩
  · exact ⟨by decide +kernel, List.prefix_refl _, h8⟩
  · exact ⟨by decide +kernel, List.prefix_refl _, h25⟩
  · exact ⟨by decide +kernel, List.prefix_append _ _, h9⟩

theorem hb_lt {at' : Bool} {tr : List Ev} {i j : Nat} (h : HB at' tr i j) : i < j := by
  induction h with
  | single h => exact h.1
  | tail _ h ih => exact Nat.lt_trans ih h.1

/-- Accesses after `i` that signal nothing are seen by their own goroutine alone. -/
theorem no_hb {tr : List Ev} {i j : Nat} {a b : Ev} (ha : tr[i]? = some a) (hb : tr[j]? = some b) (hne : a.1 ≠ b.1)
    (hq : ∀ n e, i ≤ n → tr[n]? = some e → ∃ m f, (e.2 = .new f ∨ e.2 = .acc m f) ∧ m ≠ .ast) : ¬ HB true tr i j := by
  intro h
  have key : ∀ n, HB true tr i n → ∃ e, tr[n]? = some e ∧ e.1 = a.1 := by
    intro n hn
    have estep : ∀ x y ex, i ≤ x → tr[x]? = some ex → Edge true tr x y → ∃ ey, tr[y]? = some ey ∧ ey.1 = ex.1 := by
      rintro x y ex hx hex ⟨_, p, q, hp, hq', hc⟩
      rw [hex] at hp; cases hp
      obtain ⟨m, f, he, hm⟩ := hq x ex hx hex
      refine ⟨q, hq', ?_⟩
      rcases hc with h1 | ⟨k, h1⟩ | ⟨l, h1, _⟩ | ⟨z, h1, _⟩ | ⟨_, g, m', h1, _⟩
      · exact h1.symm
      all_goals
        rw [h1] at he
        rcases he with he | he
        all_goals first | (cases he; done) | (injection he with he _; exact absurd he.symm hm)
    induction hn with
    | single h1 => exact estep _ _ a (Nat.le_refl _) ha h1
    | tail hab h1 ih =>
      obtain ⟨e, he, het⟩ := ih
      obtain ⟨e', he', het'⟩ := estep _ _ e (Nat.le_of_lt (hb_lt hab)) he h1
      exact ⟨e', he', het'.trans het⟩
  obtain ⟨e, he, het⟩ := key j h
  rw [hb] at he; cases he
  exact hne het.symm

/-- The tail of a trace consists of accesses that signal nothing. -/
def quietFrom (tr : List Ev) (i : Nat) : Bool := (tr.drop i).all fun e => match e.2 with
  | .new _ => true
  | .acc m _ => m != .ast
  | _ => false

theorem quiet_of {tr : List Ev} {i : Nat} (h : quietFrom tr i = true) :
    ∀ n e, i ≤ n → tr[n]? = some e → ∃ m f, (e.2 = .new f ∨ e.2 = .acc m f) ∧ m ≠ .ast := by
  intro n e hn he
  simp only [quietFrom, List.all_eq_true] at h
  have hm : e ∈ tr.drop i := by
    refine List.mem_iff_getElem?.2 ⟨n - i, ?_⟩
    rw [List.getElem?_drop, Nat.add_sub_cancel' hn]
    exact he
  have := h e hm
  cases hop : e.2 with
  | new f => exact ⟨.wr, f, .inl rfl, by simp⟩
  | acc m f =>
    rw [hop] at this
    exact ⟨m, f, .inr rfl, by simpa using this⟩
  | _ => rw [hop] at this; cases this

end RacesEx

open RacesEx

/-- `Close` and the gossip toggle use the cancel function of gossip without ordering: main.go closes the node while the
toggle's goroutine still runs. -/
theorem C129_gossip_cancel_refuted : ∃ tr, Exec tr ∧ Race true tr .gossipCancel := by
  refine ⟨cancelTrace, cancel_exec, cancelTrace.length - 2, cancelTrace.length - 1, (6, .acc .wr .gossipCancel), (0, .acc .rd .gossipCancel),
    by decide +kernel, by decide +kernel, by decide +kernel, ⟨by decide, .wr, .rd, rfl, rfl, .inl (.inl rfl), ?_⟩, ?_⟩
  · rintro ⟨h | h, _⟩ <;> cases h
  · exact no_hb (show _ = some (6, Op.acc .wr .gossipCancel) by decide +kernel) (show _ = some (0, Op.acc .rd .gossipCancel) by decide +kernel) (by decide) (quiet_of (by decide +kernel))

/-- libp2p may ask the gater about a peer while the node's constructor still sets the provider of addresses. -/
theorem C129_addr_provider_refuted : ∃ tr, Exec tr ∧ Race true tr .addrProvider := by
  refine ⟨providerTrace, provider_exec, providerTrace.length - 2, providerTrace.length - 1, (1, .acc .rd .addrProvider), (0, .acc .wr .addrProvider),
    by decide +kernel, by decide +kernel, by decide +kernel, ⟨by decide, .rd, .wr, rfl, rfl, .inr (.inl rfl), ?_⟩, ?_⟩
  · rintro ⟨h | h, _⟩ <;> cases h
  · exact no_hb (show _ = some (1, Op.acc .rd .addrProvider) by decide +kernel) (show _ = some (0, Op.acc .wr .addrProvider) by decide +kernel) (by decide) (quiet_of (by decide +kernel))

/-- And a gater that finds the provider need not see it initialised. -/
theorem C129_manager_unpublished_refuted : ∃ tr, Exec tr ∧ Race true tr .mgrAddrChan := by
  refine ⟨channelTrace, channel_exec, 27, channelTrace.length - 1, (0, .new .mgrAddrChan), (1, .acc .rd .mgrAddrChan),
    by decide +kernel, by decide +kernel, by decide +kernel, ⟨by decide, .wr, .rd, rfl, rfl, .inl (.inl rfl), ?_⟩, ?_⟩
  · rintro ⟨h | h, _⟩ <;> cases h
  · exact no_hb (show _ = some (0, Op.new .mgrAddrChan) by decide +kernel) (show _ = some (1, Op.acc .rd .mgrAddrChan) by decide +kernel) (by decide)
      (quiet_of (by decide +kernel))

/-- The claim is about accesses that do conflict: the validator makes the entry, the loop writes to it. -/
example : ∃ (i j : Nat) (a b : Ev), i < j ∧ blockTrace[i]? = some a ∧ blockTrace[j]? = some b ∧ Conflict a b (.entry 7) :=
  ⟨blockTrace.length - 20, blockTrace.length - 10, (24, .new (.entry 7)), (8, .acc .wr (.entry 7)), by decide +kernel, by decide +kernel,
    by decide +kernel, by decide, .wr, .wr, rfl, rfl, .inl (.inl rfl), by rintro ⟨h | h, _⟩ <;> cases h⟩

/-! ### C130: mutexes -/

/-- From wherever a goroutine holds a mutex of the watchdog, the transaction cache or the toggle, it releases it by itself, at
most five memory accesses later: it waits for no other goroutine. -/
theorem C130_released {tr : List Ev} (h : Exec tr) {l : Lock} {t : Tid} (_hl : ∀ b, l ≠ .topic b) (ht : holder l tr = some t) :
    ∃ as : List Op, as.length ≤ 5 ∧ (∀ o ∈ as, ∃ m f, o = .acc m f) ∧ Exec (tr ++ as.map (fun o => (t, o)) ++ [(t, .rel l)]) :=
  released h ht

/-- The validator in the watchdog's critical section. -/
example : ∃ tr, Exec tr ∧ holder .watchdog tr = some 24 := by
  refine ⟨blockTrace.take (blockTrace.length - 21), ?_, by decide +kernel⟩
  exact Exec.init (s := blockTrace.drop (blockTrace.length - 21)) (by rw [List.take_append_drop]; exact block_exec)

/-- No goroutine holds two mutexes. -/
theorem C130_one {tr : List Ev} (h : Exec tr) {l l' : Lock} {t : Tid} (h₁ : holder l tr = some t) (h₂ : holder l' tr = some t) : l = l' := by
  obtain ⟨n, hn⟩ := (holder_scan tr h l t).1 h₁
  obtain ⟨n', hn'⟩ := (holder_scan tr h l' t).1 h₂
  rw [hn] at hn'
  simp only [Option.some.injEq, Prod.mk.injEq] at hn'
  exact hn'.1

/-- A goroutine that locks a mutex, sends or receives, or starts another goroutine holds none. -/
theorem C130_waits_free {tr : List Ev} {t : Tid} {op : Op} (h : Exec (tr ++ [(t, op)]))
    (hop : (∃ l, op = .acq l) ∨ (∃ m, op = .send m) ∨ (∃ m, op = .recv m) ∨ ∃ x k, op = .fork x k) (l : Lock) : holder l tr ≠ some t := by
  intro hl
  obtain ⟨n, hn⟩ := (holder_scan tr h.init l t).1 hl
  apply scan_hist h t
  rw [hist_append, hist_single, if_pos rfl, scan_append, hn]
  rcases hop with ⟨l, rfl⟩ | ⟨m, rfl⟩ | ⟨m, rfl⟩ | ⟨x, k, rfl⟩ <;> rfl

end KP2P

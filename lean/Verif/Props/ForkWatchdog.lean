import Verif.Proof.ForkWatchdog
/-!
# C05, C06, C07: fork-bomb detection
-/

namespace KP2P
open Spec

def exB (h : UInt64) (id : Bytes) : Blk :=
  { id := id, previous := [9], height := h, timestamp := 0, signer := [7], rest := [] }

/-- C05. After any history, adding `b` is refused as a fork bomb exactly if, counting `b`, at least four
different ids have been added in the slot of `b` (same height, signer and parent) since that height was last
purged; otherwise it succeeds. -/
theorem C05_threshold_exact (hist : List WOp) (b : Blk) :
    (((ForkWatchdog.new.run hist).1.addBlk b).2 = some (.sentinel .forkBomb) ↔
      TooManyForks (hist ++ [.add b]) b) ∧
    (((ForkWatchdog.new.run hist).1.addBlk b).2 = none ↔ ¬ TooManyForks (hist ++ [.add b]) b) := by
  rw [ForkWatchdog.verdict_iff]
  constructor <;> split <;> simp_all

/-- C05, network form: a block with header gives the same verdict as its contents; a block without header is
the nil dereference of C41. -/
theorem C05_raw (f : ForkWatchdog) (r : RawBlock) :
    (∀ b, r.toBlk = some b → f.add r = some (f.addBlk b)) ∧ (r.header = none → f.add r = none) := by
  constructor
  · intro b h; simp [ForkWatchdog.add, h]
  · intro h; simp [ForkWatchdog.add, RawBlock.toBlk, h]

/-- C05. Adding the same block again never changes a verdict from accepted to refused. -/
theorem C05_repeat_harmless (hist : List WOp) (b : Blk)
    (h : ((ForkWatchdog.new.run hist).1.addBlk b).2 = none) :
    ((ForkWatchdog.new.run (hist ++ [.add b])).1.addBlk b).2 = none := by
  rw [(C05_threshold_exact _ _).2] at h ⊢
  rintro ⟨ids, h1, h2, h3⟩
  refine h ⟨ids, h1, h2, fun id hid => ?_⟩
  have := h3 id hid
  rw [ForkWatchdog.addedSince_snoc_add] at this
  rcases this with h | ⟨h, hs⟩
  · exact h
  · rw [ForkWatchdog.addedSince_snoc_add]; exact Or.inr ⟨h, hs⟩

/-- C05. Blocks in other slots never matter. -/
theorem C05_other_slots_irrelevant (hist : List WOp) (b c : Blk) (hne : ¬ SameSlot c b) :
    ((ForkWatchdog.new.run (hist ++ [.add c])).1.addBlk b).2 = ((ForkWatchdog.new.run hist).1.addBlk b).2 := by
  have : TooManyForks ((hist ++ [.add c]) ++ [.add b]) b ↔ TooManyForks (hist ++ [.add b]) b := by
    unfold TooManyForks
    simp only [ForkWatchdog.addedSince_snoc_add, hne, and_false, or_false]
  rw [ForkWatchdog.verdict_iff, ForkWatchdog.verdict_iff]
  by_cases h : TooManyForks (hist ++ [.add b]) b
  · rw [if_pos h, if_pos (this.2 h)]
  · rw [if_neg h, if_neg (fun x => h (this.1 x))]

example : ((ForkWatchdog.new.run [.add (exB 5 [1]), .add (exB 5 [2]), .add (exB 5 [2]), .add (exB 6 [8]),
    .add (exB 5 [3])]).1.addBlk (exB 5 [4])).2 = some (.sentinel .forkBomb) := by decide +kernel
example : ((ForkWatchdog.new.run [.add (exB 5 [1]), .add (exB 5 [2]), .add (exB 5 [2]), .add (exB 6 [8]),
    .purge 4]).1.addBlk (exB 5 [4])).2 = none := by decide +kernel
example : ¬ SameSlot (exB 6 [8]) (exB 5 [4]) := by decide +kernel
example : (exB 5 [1]).height = 5 ∧ ∃ r : RawBlock, r.toBlk = some (exB 5 [1]) :=
  ⟨rfl, ⟨some [1], some ⟨some [9], 5, 0, some [7]⟩, [], []⟩, by decide +kernel⟩

/-- C06. After `Purge(lib)` every later history is answered as if no block at or below `lib` had ever been
added. -/
theorem C06_purge_forgets (hist later : List WOp) (lib : UInt64) :
    ((ForkWatchdog.new.run (hist ++ [.purge lib])).1.run later).2 =
      ((ForkWatchdog.new.run (dropUpTo lib hist)).1.run later).2 := by
  apply ForkWatchdog.run_congr
  intro k p id
  rw [ForkWatchdog.run_fst_snoc, ForkWatchdog.knows_dropUpTo]
  simp only [ForkWatchdog.op]
  rw [ForkWatchdog.idsAt_purge]
  split <;> rfl

/-- C06. Purging leaves the next verdict for every block above `lib` unchanged. -/
theorem C06_purge_keeps (hist : List WOp) (lib : UInt64) (b : Blk) (hb : lib < b.height) :
    ((ForkWatchdog.new.run (hist ++ [.purge lib])).1.addBlk b).2 =
      ((ForkWatchdog.new.run hist).1.addBlk b).2 := by
  have : TooManyForks ((hist ++ [.purge lib]) ++ [.add b]) b ↔ TooManyForks (hist ++ [.add b]) b := by
    unfold TooManyForks
    simp only [ForkWatchdog.addedSince_snoc_add, ForkWatchdog.addedSince_snoc_purge, hb, and_true]
  rw [ForkWatchdog.verdict_iff, ForkWatchdog.verdict_iff]
  by_cases h : TooManyForks (hist ++ [.add b]) b
  · rw [if_pos h, if_pos (this.2 h)]
  · rw [if_neg h, if_neg (fun x => h (this.1 x))]

/-- C06. Right after a purge no block at or below `lib` is refused. -/
theorem C06_purge_clears (hist : List WOp) (lib : UInt64) (b : Blk) (hb : b.height ≤ lib) :
    ((ForkWatchdog.new.run (hist ++ [.purge lib])).1.addBlk b).2 = none := by
  rw [(C05_threshold_exact _ _).2]
  rintro ⟨ids, h1, h2, h3⟩
  have hall : ∀ id ∈ ids, id = b.id := by
    intro id hid
    have := h3 id hid
    rw [ForkWatchdog.addedSince_snoc_add, ForkWatchdog.addedSince_snoc_purge] at this
    rcases this with ⟨_, h⟩ | ⟨h, _⟩
    · exact absurd hb (UInt64.not_le.2 h)
    · exact h.symm
  have : ids ⊆ [b.id] := by intro id hid; simp [hall id hid]
  have := (List.subperm_of_subset h1 this).length_le
  simp [h2] at this

example : ((ForkWatchdog.new.run [.add (exB 7 [1]), .add (exB 5 [1]), .add (exB 5 [2]), .add (exB 5 [3]),
    .add (exB 6 [8]), .purge 5]).1.remembered).length = 2 := by decide +kernel
example : (5 : UInt64) < (exB 6 [8]).height ∧ (exB 5 [8]).height ≤ 5 := by decide +kernel

/-- C07. The number of remembered ids never exceeds the number of added blocks whose height has not been purged
since they were added. -/
theorem C07_memory_bound (hist : List WOp) :
    (ForkWatchdog.new.run hist).1.remembered.length ≤ (survivors hist []).length :=
  ForkWatchdog.remembered_le hist

/-- C07. What is remembered is exactly what was added and not purged. -/
theorem C07_memory_exact (hist : List WOp) (b : Blk) :
    (b.height, ⟨b.signer, b.previous⟩, b.id) ∈ (ForkWatchdog.new.run hist).1.remembered ↔
      AddedSince hist b b.id := by
  rw [ForkWatchdog.mem_remembered]
  exact ForkWatchdog.has_iff_added hist b b.id

/-- C07, negative half: there is no constant bound. For every `n` a single producer can make the detector
remember `n` ids at one height with one parent, although all but three of the additions are refused. -/
theorem C07_no_constant_bound (n : Nat) :
    ∃ blocks : List Blk, blocks.length = n ∧ (∀ b ∈ blocks, SameSlot b (exB 5 [])) ∧
      n ≤ (ForkWatchdog.new.run (blocks.map .add)).1.remembered.length := by
  let mk : Nat → Blk := fun i => exB 5 (List.replicate i 0)
  refine ⟨(List.range n).map mk, by simp, ?_, ?_⟩
  · intro b hb
    obtain ⟨i, _, rfl⟩ := List.mem_map.1 hb
    exact ⟨rfl, rfl, rfl⟩
  · let tr : Nat → UInt64 × PairKey × Bytes := fun i => (5, ⟨[7], [9]⟩, List.replicate i 0)
    have hn : ((List.range n).map tr).Nodup := by
      apply List.Nodup.map _ List.nodup_range
      intro i j e
      have := congrArg (fun x : UInt64 × PairKey × Bytes => x.2.2.length) e
      simpa [tr] using this
    have : ((List.range n).map tr).length ≤
        (ForkWatchdog.new.run (((List.range n).map mk).map .add)).1.remembered.length := by
      apply List.Subperm.length_le
      apply List.subperm_of_subset hn
      intro x hx
      obtain ⟨i, hi, rfl⟩ := List.mem_map.1 hx
      apply (C07_memory_exact _ (mk i)).2
      have hm : WOp.add (mk i) ∈ ((List.range n).map mk).map WOp.add := by
        simp only [List.mem_map]
        exact ⟨mk i, ⟨i, hi, rfl⟩, rfl⟩
      obtain ⟨pre, post, e⟩ := List.append_of_mem hm
      refine ⟨pre, mk i, post, e, rfl, ⟨rfl, rfl, rfl⟩, fun lib hl => ?_⟩
      have : WOp.purge lib ∈ ((List.range n).map mk).map WOp.add := by rw [e]; simp [hl]
      simp at this
    simpa using this

example : (survivors [.add (exB 5 [1]), .purge 5, .add (exB 6 [1])] []).length = 1 := by decide +kernel

end KP2P

import Verif.Proof.Races
/-!
# Every kind of goroutine keeps to its permissions
-/

namespace KP2P.Races
open KP2P.Spec.Races

/-- Calls that need no more than what the goroutine was given, and leave it that. -/
theorem prog_ok {k : Kind} (hc : ∀ h c, Call k h c → Ok (gift k) c ∧ (gift k).own ⊆ (after (gift k) c).own) {h : List Op}
    (hp : Prog k h) : Ok (gift k) h ∧ (gift k).le (after (gift k) h) := by
  induction hp with
  | nil => exact ⟨trivial, .refl _⟩
  | call _ hcall ih =>
    obtain ⟨h1, h2⟩ := hc _ _ hcall
    refine ⟨ok_append.2 ⟨ih.1, ok_mono ih.2 h1⟩, ?_⟩
    rw [after_append]
    exact Res.le.trans ⟨h2, (after_grows _ _).1, (after_grows _ _).2⟩ (after_mono ih.2 _)

/-- Kinds that end with a `go` statement handing everything on. -/
theorem prog_ok_fork {k : Kind} (hc : ∀ h c, Call k h c → (∀ t k', Op.fork t k' ∉ h) → Ok (gift k) c ∧
      ((∀ t k', Op.fork t k' ∉ c) → (gift k).own ⊆ (after (gift k) c).own))
    (hn : ∀ h c, Call k h c → (∃ t k', Op.fork t k' ∈ h) → ∃ m, c = [.acc .rd m] ∧ m ∈ [Field.mgrConst] ∧ fz .mgrConst ∈ (gift k).know) {h : List Op}
    (hp : Prog k h) : Ok (gift k) h ∧ ((∀ t k', Op.fork t k' ∉ h) → (gift k).le (after (gift k) h)) := by
  induction hp with
  | nil => exact ⟨trivial, fun _ => .refl _⟩
  | @call h c _ hcall ih =>
    by_cases hf : ∃ t k', Op.fork t k' ∈ h
    · obtain ⟨m, rfl, hm, hk⟩ := hn _ _ hcall hf
      obtain ⟨t, k', hf⟩ := hf
      refine ⟨ok_append.2 ⟨ih.1, ?_, trivial⟩, fun hno => absurd (List.mem_append_left _ hf) (hno t k')⟩
      simp only [List.mem_singleton] at hm
      subst hm
      exact .inl (.inr ((after_grows _ _).1 hk))
    · have hf' : ∀ t k', Op.fork t k' ∉ h := fun t k' hx => hf ⟨t, k', hx⟩
      obtain ⟨h1, h2⟩ := hc _ _ hcall hf'
      refine ⟨ok_append.2 ⟨ih.1, ok_mono (ih.2 hf') h1⟩, fun hno => ?_⟩
      rw [after_append]
      exact Res.le.trans ⟨h2 fun t k' hx => hno t k' (List.mem_append_right _ hx), (after_grows _ _).1, (after_grows _ _).2⟩
        (after_mono (ih.2 hf') _)

local macro "perm" : tactic => `(tactic| (
  simp [Ok, permits, upd, after, gift, consts, allLocks, fz, cls, pieces, guarded, cargo, less, may, Has, watchdogAdd, watchdogPurge,
    cacheCheck, applyBlock, applyTransaction, isEnabled, updateHeadTime, topicStart, topicStop, publish, startGossip, stopGossip, setEnabled]))

theorem ok_gater {h : List Op} (hp : Prog .gater h) : Ok (gift .gater) h := by
  refine (prog_ok (fun h c hc => ?_) hp).1
  cases hc <;> perm

theorem ok_amqp {h : List Op} (hp : Prog .amqp h) : Ok (gift .amqp) h := by
  refine (prog_ok (fun h c hc => ?_) hp).1
  cases hc with
  | amqpBlock n t₁ t₂ on => cases on <;> perm
  | amqpTx n on => cases on <;> perm
  | _ => perm

theorem ok_headTimer {n : Nat} {h : List Op} (hp : Prog (.headTimer n) h) : Ok (gift (.headTimer n)) h := by
  refine (prog_ok (fun h c hc => ?_) hp).1
  cases hc; perm

theorem ok_caster {c : Chan} {n : Nat} {h : List Op} (hp : Prog (.caster c n) h) : Ok (gift (.caster c n)) h := by
  refine (prog_ok (fun h c hc => ?_) hp).1
  cases hc with
  | caster c n i hc => rcases hc with rfl | rfl <;> perm

theorem ok_nodeLoop {h : List Op} (hp : Prog .nodeLoop h) : Ok (gift .nodeLoop) h := by
  refine (prog_ok (fun h c hc => ?_) hp).1
  cases hc; perm

theorem ok_handler {h : List Op} (hp : Prog .handler h) : Ok (gift .handler) h := by
  refine (prog_ok (fun h c hc => ?_) hp).1
  cases hc <;> perm

theorem ok_toggle {h : List Op} (hp : Prog .toggle h) : Ok (gift .toggle) h := by
  refine (prog_ok (fun h c hc => ?_) hp).1
  cases hc with
  | toggleOff b₁ b₂ c => cases b₁ <;> cases b₂ <;> cases c <;> perm
  | _ => perm

theorem ok_starter {b : Bool} {h : List Op} (hp : Prog (.starter b) h) : Ok (gift (.starter b)) h := by
  refine (prog_ok (fun h c hc => ?_) hp).1
  cases hc with
  | starter b t on => cases b <;> cases on <;> perm

theorem ok_validators {b : Bool} {h : List Op} (hp : Prog (.validators b) h) : Ok (gift (.validators b)) h := by
  refine (prog_ok (fun h c hc => ?_) hp).1
  cases hc; perm

theorem ok_validator {b : Bool} {n : Nat} {h : List Op} (hp : Prog (.validator b n) h) : Ok (gift (.validator b n)) h := by
  refine (prog_ok (fun h c hc => ?_) hp).1
  cases hc <;> perm

theorem ok_stats {h : List Op} (hp : Prog .stats h) : Ok (gift .stats) h := by
  refine (prog_ok (fun h c hc => ?_) hp).1
  cases hc; perm

theorem ok_redial {h : List Op} (hp : Prog .redial h) : Ok (gift .redial) h := by
  refine (prog_ok (fun h c hc => ?_) hp).1
  cases hc; perm

theorem ok_manager {h : List Op} (hp : Prog .manager h) : Ok (gift .manager) h := by
  refine (prog_ok (fun h c hc => ?_) hp).1
  cases hc with
  | mgrOther w => cases w <;> perm
  | _ => perm

theorem ok_notifier {h : List Op} (hp : Prog .notifier h) : Ok (gift .notifier) h := by
  refine (prog_ok (fun h c hc => ?_) hp).1
  cases hc <;> perm

theorem ok_rounds {s : Nat} {h : List Op} (hp : Prog (.rounds s) h) : Ok (gift (.rounds s)) h := by
  refine (prog_ok (fun h c hc => ?_) hp).1
  cases hc with
  | round s w => cases w <;> perm
  | _ => perm

theorem ok_worker {h : List Op} (hp : Prog .worker h) : Ok (gift .worker) h := by
  refine (prog_ok (fun h c hc => ?_) hp).1
  cases hc <;> perm

theorem ok_tryer {n : Nat} {h : List Op} (hp : Prog (.tryer n) h) : Ok (gift (.tryer n)) h := by
  refine (prog_ok (fun h c hc => ?_) hp).1
  cases hc with
  | tryerSend n i c hc => rcases hc with rfl | rfl | rfl <;> perm
  | _ => perm

theorem ok_mgrStart {h : List Op} (hp : Prog .mgrStart h) : Ok (gift .mgrStart) h := by
  refine (prog_ok_fork (fun h c hc _ => ?_) (fun h c hc hf => ?_) hp).1
  · cases hc with
    | mgrStart => perm
    | mgrFork hn t₁ t₂ => exact ⟨by perm, fun h => absurd (List.mem_cons_self ..) (h t₁ .redial)⟩
  · cases hc with
    | mgrStart => exact ⟨_, rfl, by simp, by perm⟩
    | mgrFork hn => obtain ⟨t, k, hf⟩ := hf; exact absurd hf (hn t k)

theorem ok_session {s : Nat} {h : List Op} (hp : Prog (.session s) h) : Ok (gift (.session s)) h := by
  refine (prog_ok_fork (fun h c hc _ => ?_) (fun h c hc hf => ?_) hp).1
  · cases hc with
    | handshake s hn w => cases w <;> perm
    | shaken => perm
  · obtain ⟨t, k, hf⟩ := hf
    cases hc with
    | handshake s hn w => exact absurd hf (hn t k)
    | shaken s hn => exact absurd hf (hn t k)

/-! ### The first goroutine -/

theorem ok_workers (r : Res) (ws : List Tid) (hr : (gift .worker).know ⊆ r.know ∧ (gift .worker).opened ⊆ r.opened) :
    Ok r (ws.map (fun w => .fork w .worker)) := by
  induction ws generalizing r with
  | nil => trivial
  | cons w ws ih =>
    refine ⟨⟨fun _ h => (by cases h), hr.1, hr.2⟩, ih _ hr⟩

/-- The number of a goroutine does not matter. -/
def erase : Op → Op
  | .fork _ k => .fork 0 k
  | o => o

theorem permits_erase (r : Res) (o : Op) : permits r (erase o) = permits r o ∧ upd r (erase o) = upd r o := by
  cases o <;> exact ⟨rfl, rfl⟩

theorem ok_erase (r : Res) (os : List Op) : (Ok r (os.map erase) ↔ Ok r os) ∧ after r (os.map erase) = after r os := by
  induction os generalizing r with
  | nil => exact ⟨Iff.rfl, rfl⟩
  | cons o os ih =>
    obtain ⟨h1, h2⟩ := permits_erase r o
    obtain ⟨i1, i2⟩ := ih (upd r o)
    refine ⟨?_, ?_⟩
    · simp only [List.map_cons, Ok, h1, h2, i1]
    · simp only [after, List.map_cons, List.foldl_cons] at i2 ⊢
      rw [h2]; exact i2

theorem start_ok (t : Nat → Tid) (ws : List Tid) : ∃ pre, construct t ws = pre ++ ws.map (fun w => .fork w .worker) ++ [.fork (t 8) .nodeLoop] ∧
    Ok (gift .main) pre ∧ consts ⊆ (after (gift .main) pre).know ∧ allLocks ⊆ (after (gift .main) pre).opened := by
  have h : ∃ pre, construct (fun _ => 0) [] = pre ++ [.fork 0 .nodeLoop] ∧
      (Ok (gift .main) pre ∧ consts ⊆ (after (gift .main) pre).know ∧ allLocks ⊆ (after (gift .main) pre).opened) :=
    ⟨(construct (fun _ => 0) []).dropLast, rfl, by decide +kernel⟩
  obtain ⟨pre, he, h1, h2, h3⟩ := h
  refine ⟨_, rfl, ?_⟩
  have hpre : ∀ x : List Op, x ++ [Op.fork 0 .nodeLoop] = (construct (fun _ => 0) []) → x = pre := fun x hx =>
    List.append_cancel_right (hx.trans he)
  rw [← (ok_erase _ _).1, ← (ok_erase _ _).2, hpre (List.map erase _) rfl]
  exact ⟨h1, h2, h3⟩

theorem ok_main {h : List Op} (hp : Prog .main h) : Ok (gift .main) h ∧
    (h ≠ [] → consts ⊆ (after (gift .main) h).know ∧ allLocks ⊆ (after (gift .main) h).opened) := by
  induction hp with
  | nil => exact ⟨trivial, fun h => absurd rfl h⟩
  | @call h c _ hcall ih =>
    cases hcall with
    | construct t ws =>
      obtain ⟨pre, he, h1, h2, h3⟩ := start_ok t ws
      rw [List.nil_append, he]
      have hg := after_grows (after (gift .main) pre) (ws.map (fun w => .fork w .worker))
      refine ⟨ok_append.2 ⟨ok_append.2 ⟨h1, ok_workers _ _ ⟨h2, h3⟩⟩, ?_, trivial⟩, fun _ => ?_⟩
      · rw [after_append]
        exact ⟨fun _ h => (by cases h), fun _ x => hg.1 (h2 x), fun _ x => hg.2 (h3 x)⟩
      · rw [after_append, after_append]
        have hg' := after_grows (after (after (gift .main) pre) (ws.map (fun w => .fork w .worker))) [.fork (t 8) .nodeLoop]
        exact ⟨fun _ x => hg'.1 (hg.1 (h2 x)), fun _ x => hg'.2 (hg.2 (h3 x))⟩
    | close h0 b₁ b₂ c =>
      obtain ⟨h2, h3⟩ := ih.2 h0
      have hle : (gift .amqp).le (after (gift .main) h) := ⟨fun _ h => (by cases h), h2, h3⟩
      refine ⟨ok_append.2 ⟨ih.1, ok_mono hle ?_⟩, fun _ => ?_⟩
      · cases b₁ <;> cases b₂ <;> cases c <;> perm
      · rw [after_append]
        have hg := after_grows (after (gift .main) h) ([.acc .rd .nodeParts] ++ stopGossip b₁ b₂ c ++ [.acc .rd .nodeParts])
        exact ⟨fun _ x => hg.1 (h2 x), fun _ x => hg.2 (h3 x)⟩

/-! ### The applicator's loop -/

/-- What the loop has after history `h`: what it was given, the entries and blocks received. -/
structure Base (h : List Op) (r : Res) : Prop where
  gift : (gift .appLoop).le r
  entries : ∀ j o, Op.recv ⟨.newBlock, j, o⟩ ∈ h → pieces (.entry o) ⊆ r.own
  blobs : ∀ c j o, Op.recv ⟨c, j, o⟩ ∈ h → fz (.blob o) ∈ r.know

def nice : Op → Prop
  | .acc _ _ | .acq _ | .rel _ | .recv _ => True
  | .fork _ k => (Races.gift k).own = []
  | _ => False

theorem Base.step {h : List Op} {r : Res} (hb : Base h r) {o : Op} (hn : nice o) : Base (h ++ [o]) (upd r o) := by
  have hown : ∀ p : Piece, p ∈ r.own → (∀ l, p ∉ guarded l) → p ∈ (upd r o).own := by
    intro p hp hg
    cases o with
    | new => exact hn.elim
    | acc => exact hp
    | acq => exact List.mem_append_right _ hp
    | rel l => exact mem_less.2 ⟨hp, hg l⟩
    | fork t k => exact mem_less.2 ⟨hp, by rw [show (Races.gift k).own = [] from hn]; simp⟩
    | send => exact hn.elim
    | recv => exact List.mem_append_right _ hp
    | open_ => exact hn.elim
    | freeze => exact hn.elim
  have hg := after_grows r [o]
  refine ⟨⟨?_, fun _ x => hg.1 (hb.gift.know x), fun _ x => hg.2 (hb.gift.opened x)⟩, ?_, ?_⟩
  · intro p hp
    refine hown p (hb.gift.own hp) fun l => ?_
    simp only [Races.gift, pieces, List.cons_append, List.nil_append, List.mem_cons, List.not_mem_nil, or_false] at hp
    rcases hp with rfl | rfl | rfl | rfl | rfl <;> cases l <;> simp [guarded, pieces]
  · intro j x hx p hp
    rcases List.mem_append.1 hx with hx | hx
    · refine hown p (hb.entries j x hx hp) fun l => ?_
      rw [mem_pieces] at hp
      cases l <;> simp [guarded, mem_pieces, hp]
      constructor <;> (rintro rfl; cases hp)
    · simp only [List.mem_singleton] at hx
      subst hx
      exact List.mem_append_left _ hp
  · intro c j x hx
    rcases List.mem_append.1 hx with hx | hx
    · exact hg.1 (hb.blobs c j x hx)
    · simp only [List.mem_singleton] at hx
      subst hx
      refine List.mem_append_left _ ?_
      cases c <;> simp [cargo]

theorem Base.seg {h : List Op} {r : Res} (hb : Base h r) {os : List Op} (hn : ∀ o ∈ os, nice o) : Base (h ++ os) (after r os) := by
  induction os generalizing h r with
  | nil => simpa [after] using hb
  | cons o os ih =>
    have := ih (hb.step (hn o (List.mem_cons_self ..))) (fun x hx => hn x (List.mem_cons_of_mem _ hx))
    rwa [List.append_assoc] at this

theorem Base.weaken {h x : List Op} {r : Res} (hb : Base (h ++ x) r) : Base h r :=
  ⟨hb.gift, fun j o ho => hb.entries j o (List.mem_append_left _ ho), fun c j o ho => hb.blobs c j o (List.mem_append_left _ ho)⟩

theorem Base.all {h : List Op} {r : Res} (hb : Base h r) {os : List Op} (hn : ∀ o ∈ os, nice o ∧ ∀ r', Base h r' → permits r' o) : Ok r os := by
  induction os generalizing r with
  | nil => trivial
  | cons o os ih =>
    obtain ⟨h1, h2⟩ := hn o (List.mem_cons_self ..)
    exact ⟨h2 r hb, ih (hb.step h1).weaken (fun x hx => hn x (List.mem_cons_of_mem _ hx))⟩

/-- Ok in pieces. -/
theorem Base.app {h : List Op} {r : Res} (hb : Base h r) {x y : List Op} (hx : Ok r x) (hn : ∀ o ∈ x, nice o)
    (hy : ∀ r', Base (h ++ x) r' → Ok r' y) : Ok r (x ++ y) := ok_append.2 ⟨hx, hy _ (hb.seg hn)⟩

theorem permits_tryer {h : List Op} {r : Res} (hb : Base h r) {t n : Nat} (hn : ∃ c j, Op.recv ⟨c, j, n⟩ ∈ h) :
    permits r (.fork t (.tryer n)) := by
  obtain ⟨c, j, hn⟩ := hn
  refine ⟨fun _ h => (by cases h), fun p hp => ?_, hb.gift.opened⟩
  rcases List.mem_cons.1 hp with rfl | hp
  · exact hb.blobs c j n hn
  · exact hb.gift.know hp

theorem permits_blob {h : List Op} {r : Res} (hb : Base h r) {n : Nat} (hn : ∃ c j, Op.recv ⟨c, j, n⟩ ∈ h) :
    permits r (.acc .rd (.blob n)) := by
  obtain ⟨c, j, hn⟩ := hn
  exact .inl (.inr (hb.blobs c j n hn))

theorem permits_entry {h : List Op} {r : Res} (hb : Base h r) {n : Nat} (hn : ∃ j, Op.recv ⟨.newBlock, j, n⟩ ∈ h) :
    permits r (.acc .rd (.entry n)) ∧ permits r (.acc .wr (.entry n)) := by
  obtain ⟨j, hn⟩ := hn
  have h1 := hb.entries j n hn (mem_pieces (p := (.entry n, .a)).2 rfl)
  have h2 := hb.entries j n hn (mem_pieces (p := (.entry n, .b)).2 rfl)
  exact ⟨.inl (.inl h1), h1, h2⟩

/-- The part that every pass has in common: children are tried, entries answered. -/
theorem ok_tail {h : List Op} {r : Res} (hb : Base h r) {kids : List (Tid × Nat)} {gone : List Nat}
    (hk : ∀ x ∈ kids, ∃ j, Op.recv ⟨.newBlock, j, x.2⟩ ∈ h) (hg : ∀ o ∈ gone, ∃ j, Op.recv ⟨.newBlock, j, o⟩ ∈ h) :
    (∀ o ∈ kids.map (fun x => Op.acc .rd (.blob x.2)) ++ kids.map (fun x => Op.fork x.1 (.tryer x.2)) ++
      gone.map (fun o => Op.acc .rd (.entry o)), nice o) ∧
    Ok r (kids.map (fun x => Op.acc .rd (.blob x.2)) ++ kids.map (fun x => Op.fork x.1 (.tryer x.2)) ++
      gone.map (fun o => Op.acc .rd (.entry o))) := by
  have hall : ∀ o ∈ kids.map (fun x => Op.acc .rd (.blob x.2)) ++ kids.map (fun x => Op.fork x.1 (.tryer x.2)) ++
      gone.map (fun o => Op.acc .rd (.entry o)), nice o ∧ ∀ r', Base h r' → permits r' o := by
    intro o ho
    simp only [List.mem_append, List.mem_map] at ho
    rcases ho with (⟨x, hx, rfl⟩ | ⟨x, hx, rfl⟩) | ⟨x, hx, rfl⟩
    · obtain ⟨j, hj⟩ := hk x hx
      exact ⟨trivial, fun r' hb' => permits_blob hb' ⟨_, j, hj⟩⟩
    · obtain ⟨j, hj⟩ := hk x hx
      exact ⟨rfl, fun r' hb' => permits_tryer hb' ⟨_, j, hj⟩⟩
    · exact ⟨trivial, fun r' hb' => (permits_entry hb' (hg x hx)).1⟩
  exact ⟨fun o ho => (hall o ho).1, hb.all hall⟩

theorem ok_appCall {h c : List Op} {r : Res} (hb : Base h r) (hc : Call .appLoop h c) : Ok r c ∧ ∀ o ∈ c, nice o := by
  cases hc with
  | appNew n i t more ho =>
    have hhead : Ok r [.acc .rd .appConst, .recv ⟨.newBlock, i, n⟩, .acc .rd (.entry n), .acc .rd (.blob n), .acc .rd .tables,
        .acc .rd .lib, .acc .wr (.entry n)] := ok_mono hb.gift (by perm)
    have hm : ∀ o ∈ more.map (fun o => Op.acc .wr (.entry o)), nice o := by
      intro o ho'; obtain ⟨x, _, rfl⟩ := List.mem_map.1 ho'; trivial
    have hn1 : ∀ o ∈ [Op.acc .rd .appConst, .recv ⟨.newBlock, i, n⟩, .acc .rd (.entry n), .acc .rd (.blob n), .acc .rd .tables,
        .acc .rd .lib, .acc .wr (.entry n)], nice o := by simp [nice]
    have hn2 : ∀ o ∈ [Op.acc .wr .tables, .fork t (.tryer n)], nice o := by simp [nice, gift]
    refine ⟨?_, ?_⟩
    · rw [List.append_assoc]
      refine hb.app hhead hn1 fun r' hb' => ?_
      refine hb'.app (hb'.all fun o ho' => ⟨hm o ho', ?_⟩) hm fun r'' hb'' => ?_
      · obtain ⟨x, hx, rfl⟩ := List.mem_map.1 ho'
        obtain ⟨j, hj⟩ := ho x hx
        exact fun r' hb' => (permits_entry hb' ⟨j, List.mem_append_left _ hj⟩).2
      · refine ⟨permits_mono hb''.gift (by perm), permits_tryer (hb''.step (o := .acc .wr .tables) trivial) ⟨.newBlock, i, by simp⟩, trivial⟩
    · intro o ho'
      rw [List.append_assoc] at ho'
      rcases List.mem_append.1 ho' with h1 | h1
      · exact hn1 o h1
      rcases List.mem_append.1 h1 with h1 | h1
      · exact hm o h1
      · exact hn2 o h1
  | appStatus n i kids gone hk hg =>
    have hn1 : ∀ o ∈ [Op.acc .rd .appConst, .recv ⟨.blockStatus, i, n⟩, .acc .rd (.blob n), .acc .rd .tables, .acc .wr .tables], nice o := by
      simp [nice]
    have htail : ∀ r', Base (h ++ [Op.acc .rd .appConst, .recv ⟨.blockStatus, i, n⟩, .acc .rd (.blob n), .acc .rd .tables, .acc .wr .tables]) r' → _ :=
      fun r' hb' => ok_tail (kids := kids) (gone := gone) hb'.weaken hk hg
    rw [List.append_assoc, List.append_assoc, ← List.append_assoc (kids.map _)]
    refine ⟨hb.app (ok_mono hb.gift (by perm)) hn1 fun r' hb' => (htail r' hb').2, ?_⟩
    intro o ho'
    rcases List.mem_append.1 ho' with h1 | h1
    · exact hn1 o h1
    · exact (htail _ (hb.seg hn1)).1 o h1
  | appForks n i kids gone hk hg =>
    have hn1 : ∀ o ∈ [Op.acc .rd .appConst, .recv ⟨.forkHeads, i, n⟩, .acc .rd .lib, .acc .rd (.blob n), .acc .ast .lib] ++ watchdogPurge ++
        [.acc .rd .tables, .acc .wr .tables], nice o := by simp [nice, watchdogPurge]
    have htail : ∀ r', Base (h ++ ([Op.acc .rd .appConst, .recv ⟨.forkHeads, i, n⟩, .acc .rd .lib, .acc .rd (.blob n), .acc .ast .lib] ++ watchdogPurge ++
        [.acc .rd .tables, .acc .wr .tables])) r' → _ := fun r' hb' => ok_tail (kids := kids) (gone := gone) hb'.weaken hk hg
    rw [List.append_assoc, List.append_assoc, ← List.append_assoc (kids.map _)]
    refine ⟨hb.app (ok_mono hb.gift (by perm)) hn1 fun r' hb' => (htail r' hb').2, ?_⟩
    intro o ho'
    rcases List.mem_append.1 ho' with h1 | h1
    · exact hn1 o h1
    · exact (htail _ (hb.seg hn1)).1 o h1
  | appBroadcast n i kids hk =>
    have hn1 : ∀ o ∈ [Op.acc .rd .appConst, .recv ⟨.blockBroadcast, i, n⟩] ++ cacheCheck n ++ [.acc .rd (.blob n), .acc .rd .tables, .acc .wr .tables], nice o := by
      simp [nice, cacheCheck]
    have htail : ∀ r', Base (h ++ ([Op.acc .rd .appConst, .recv ⟨.blockBroadcast, i, n⟩] ++ cacheCheck n ++
        [.acc .rd (.blob n), .acc .rd .tables, .acc .wr .tables])) r' → _ := fun r' hb' => ok_tail (kids := kids) (gone := []) hb'.weaken hk (by simp)
    rw [List.append_assoc]
    have htail' := fun r' hb' => htail r' hb'
    simp only [List.map_nil, List.append_nil] at htail'
    refine ⟨hb.app (ok_mono hb.gift (by perm)) hn1 fun r' hb' => (htail' r' hb').2, ?_⟩
    intro o ho'
    rcases List.mem_append.1 ho' with h1 | h1
    · exact hn1 o h1
    · exact (htail' _ (hb.seg hn1)).1 o h1
  | appTry n i t => exact ⟨ok_mono hb.gift (by perm), by simp [nice, gift]⟩

theorem ok_appLoop {h : List Op} (hp : Prog .appLoop h) : Ok (gift .appLoop) h ∧ Base h (after (gift .appLoop) h) := by
  induction hp with
  | nil => exact ⟨trivial, .refl _, by simp, by simp⟩
  | call _ hcall ih =>
    obtain ⟨h1, h2⟩ := ok_appCall ih.2 hcall
    refine ⟨ok_append.2 ⟨ih.1, h1⟩, ?_⟩
    rw [after_append]
    exact ih.2.seg h2

/-! ### Together -/

theorem ok_kind (k : Kind) {h : List Op} (hp : Prog k h) : Ok (gift k) h := by
  cases k with
  | main => exact (ok_main hp).1
  | gater => exact ok_gater hp
  | amqp => exact ok_amqp hp
  | headTimer n => exact ok_headTimer hp
  | caster c n => exact ok_caster hp
  | nodeLoop => exact ok_nodeLoop hp
  | handler => exact ok_handler hp
  | toggle => exact ok_toggle hp
  | starter b => exact ok_starter hp
  | validators b => exact ok_validators hp
  | validator b n => exact ok_validator hp
  | stats => exact ok_stats hp
  | mgrStart => exact ok_mgrStart hp
  | redial => exact ok_redial hp
  | manager => exact ok_manager hp
  | notifier => exact ok_notifier hp
  | session s => exact ok_session hp
  | rounds s => exact ok_rounds hp
  | appLoop => exact (ok_appLoop hp).1
  | worker => exact ok_worker hp
  | tryer n => exact ok_tryer hp

theorem Forked.kind {t : Tid} {tr : List Ev} (h : Forked t tr) : ∃ k, kindOf t tr = some k := by
  induction tr with
  | nil => obtain ⟨x, hx, _⟩ := h; cases hx
  | cons e tr ih =>
    obtain ⟨a, o⟩ := e
    by_cases hf : Forked t tr
    · obtain ⟨k, hk⟩ := ih hf
      cases o <;> simp only [kindOf, hk, Option.some.injEq, exists_eq']
      split <;> simp
    · obtain ⟨x, hx, k, hk⟩ := h
      rcases List.mem_cons.1 hx with rfl | hx
      · simp only at hk; subst hk; simp [kindOf]
      · exact absurd ⟨x, hx, k, hk⟩ hf

theorem fine_of_exec {tr : List Ev} (h : Exec tr) : Fine tr := by
  refine ⟨h.sched, ?_⟩
  rintro pre ⟨t, op⟩ post rfl
  have hen := h.sched pre (t, op) post rfl
  have hk : ∃ k, kindOf t pre = some k ∧ kindOf t (pre ++ (t, op) :: post) = some k := by
    by_cases hf : Forked t pre
    · obtain ⟨k, hk⟩ := hf.kind
      exact ⟨k, hk, by rw [kindOf_append_forked hf, hk]⟩
    · have h0 : t = 0 := by
        rcases hen.1 with h1 | ⟨x, hx, k, hk⟩
        · exact h1
        · exact absurd ⟨x, hx, k, hk⟩ hf
      refine ⟨.main, by rw [kindOf_not hf, if_pos h0], ?_⟩
      rw [kindOf_not, if_pos h0]
      rintro ⟨x, hx, k, hk⟩
      obtain ⟨p, q, he⟩ := List.append_of_mem hx
      have := h.sched p x q he
      simp only [enabled, hk] at this
      exact this.2.1 h0
  obtain ⟨k, hk1, hk2⟩ := hk
  obtain ⟨hh, hp, hpre⟩ := h.progs t k hk2
  obtain ⟨rest, rfl⟩ := hpre
  have hok := ok_kind k hp
  rw [hist_append] at hok
  have hc : hist t ((t, op) :: post) = op :: hist t post := by simp [hist]
  rw [hc, List.append_assoc, List.cons_append] at hok
  simp only [R, hk1]
  exact (ok_append.1 hok).2.1

end KP2P.Races

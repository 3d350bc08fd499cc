import Verif.Spec.NetSync
import Verif.Props.SyncRun
/-!
# C147: synchronisation spreads a chain over a network

The nodes and sessions of `Model/NetSync.lean`.
-/

namespace KP2P
open KP2P.PeerConn KP2P.PeerRPC KP2P.Peering KP2P.Spec.PeerConn KP2P.Spec.Peering KP2P.Spec.CatchUp KP2P.Link KP2P.SyncRun KP2P.Spec.SyncRun
open KP2P.NetSync (view)
open KP2P.Spec.NetSync (pause here Top Served Setting Exec Follows FairAt Way)

theorem sync_pause (o : Opts) (ao : AppOpts) (s : SyncRun.State) : SyncRun.step o ao s pause = some s := by
  simp only [pause, SyncRun.step, Link.step, App.step, Option.map_some]
  rw [show s.link.app.now + ((0 : Nat) : Int) = s.link.app.now by omega]

/-- A step of the network is a step of each session with the rest of its node. -/
theorem view_step {o : Opts} {ao : AppOpts} {s s' : NetSync.State} {l : NetSync.Label} (h : NetSync.step o ao s l = some s') (w v : Bytes) :
    SyncRun.step o ao (view s w v) (here s w v l) = some (view s' w v) := by
  cases l with
  | sys u l =>
    simp only [NetSync.step] at h
    split at h
    · cases h
    obtain ⟨x, hx, rfl⟩ := Option.map_eq_some_iff.1 h
    simp only [here]
    by_cases hu : u = w
    · subst hu
      simp only [if_true, SyncRun.step, view, hx, Option.map_some, Function.update_self]
    · rw [if_neg hu, sync_pause]
      simp only [view, Function.update_of_ne (Ne.symm hu)]
  | sess u x l =>
    simp only [NetSync.step] at h
    split at h
    · cases h
    by_cases hu : u = w
    · subst hu
      by_cases hx : x = v
      · subst hx
        simp only [here, if_true]
        cases l with
        | sys l => cases h
        | _ =>
          obtain ⟨t, ht, rfl⟩ := Option.map_eq_some_iff.1 h
          rw [ht]
          simp only [view, Function.update_self]
      · simp only [here, if_true, if_neg hx]
        -- another session of the same node
        have other : ∀ (t : SyncRun.State) (d : Bytes → Bool), t.link = s.link u →
            view { link := Function.update s.link u t.link
                   sess := Function.update s.sess u (Function.update (s.sess u) x ⟨t.phase, t.env, t.results⟩)
                   dead := d } u v = view s u v := by
          intro t d ht
          simp only [view, Function.update_self, Function.update_of_ne (Ne.symm hx), ht]
        cases l with
        | sys l => cases h
        | ask e =>
          obtain ⟨t, ht, rfl⟩ := Option.map_eq_some_iff.1 h
          rw [sync_pause, other]
          simp only [SyncRun.step] at ht
          split at ht
          · split at ht <;> (cases ht; rfl)
          · cases ht
        | back e =>
          obtain ⟨t, ht, rfl⟩ := Option.map_eq_some_iff.1 h
          rw [sync_pause, other]
          simp only [SyncRun.step] at ht
          split at ht
          · split at ht <;> cases ht; rfl
          · cases ht
        | finish =>
          obtain ⟨t, ht, rfl⟩ := Option.map_eq_some_iff.1 h
          rw [sync_pause, other]
          simp only [SyncRun.step] at ht
          split at ht <;> cases ht; rfl
        | hand =>
          obtain ⟨t, ht, rfl⟩ := Option.map_eq_some_iff.1 h
          simp only [SyncRun.step] at ht
          split at ht
          · rename_i b todo hp
            have hp : (s.sess u x).phase = .handing (b :: todo) := hp
            rw [hp]
            cases hb : b.toBlk with
            | none =>
              simp only [hb, Option.some.injEq] at ht
              simp only [hb]
              rw [sync_pause, other _ _ (by rw [← ht]; rfl)]
            | some y =>
              simp only [hb] at ht
              split at ht
              · rename_i q hq
                cases ht
                have hq : Link.step ao (s.link u) (.act (.applyBlock y)) = some q := hq
                simp only [hb, SyncRun.step, view, hq, Option.map_some, Function.update_self, Function.update_of_ne (Ne.symm hx)]
              · cases ht
          · cases ht
    · simp only [here, if_neg hu, sync_pause]
      cases l with
      | sys l => cases h
      | _ =>
        obtain ⟨t, ht, rfl⟩ := Option.map_eq_some_iff.1 h
        simp only [view, Function.update_of_ne (Ne.symm hu)]

/-- What the chain of a node has, it keeps. -/
theorem netsync_keeps {p : Setting} {σ : Nat → NetSync.State} {ev : Nat → NetSync.Label} (h : Exec p σ ev) {n m : Nat} (hm : n ≤ m) {w : Bytes}
    {k : Nat} (hx : HasUpto ((σ n).link w) p.c k) : HasUpto ((σ m).link w) p.c k := by
  induction hm with
  | refl => exact hx
  | @step m hm ih =>
    intro j h0 hj
    have ih := ih j h0 hj
    rcases sync_link_step (view_step (h m) w w) with he | ⟨y, _, hy⟩ | ⟨l, hl, hy⟩
    · have he : (σ (m + 1)).link w = (σ m).link w := he
      rw [he]; exact ih
    · exact accepted_mono hy ih
    · exact accepted_mono hy ih

/-- A process that has ended does nothing. -/
theorem netsync_dead {p : Setting} {σ : Nat → NetSync.State} {ev : Nat → NetSync.Label} (hexec : Exec p σ ev) {w : Bytes} {n m : Nat}
    (hd : (σ n).dead w = true) (hm : n ≤ m) : (σ m).dead w = true ∧ (σ m).link w = (σ n).link w := by
  induction hm with
  | refl => exact ⟨hd, rfl⟩
  | @step m hm ih =>
    have hst := hexec m
    show (σ (m + 1)).dead w = true ∧ (σ (m + 1)).link w = _
    cases hev : ev m with
    | sys u l =>
      rw [hev] at hst
      simp only [NetSync.step] at hst
      split at hst
      · cases hst
      rename_i hu
      have hne : w ≠ u := by rintro rfl; exact hu ih.1
      obtain ⟨t, _, he⟩ := Option.map_eq_some_iff.1 hst
      rw [← he]
      exact ⟨ih.1, by simp only [Function.update_of_ne hne]; exact ih.2⟩
    | sess u y l =>
      rw [hev] at hst
      simp only [NetSync.step] at hst
      split at hst
      · cases hst
      rename_i hu
      have hne : w ≠ u := by rintro rfl; exact hu ih.1
      cases l with
      | sys l => cases hst
      | _ =>
        obtain ⟨t, _, he⟩ := Option.map_eq_some_iff.1 hst
        rw [← he]
        refine ⟨?_, by simp only [Function.update_of_ne hne]; exact ih.2⟩
        show (if t.phase = .crashed then _ else _ : Bytes → Bool) w = true
        split
        · rw [Function.update_of_ne hne]; exact ih.1
        · exact ih.1

theorem netsync_own {o : Opts} {ao : AppOpts} {s : NetSync.State} {w v : Bytes} (hd : s.dead w = false) {x : SyncRun.Label} (hx : Own x) :
    (NetSync.step o ao s (.sess w v x)).isSome = (SyncRun.step o ao (view s w v) x).isSome := by
  cases x <;> simp only [Own] at hx <;> simp only [NetSync.step, hd, Bool.false_eq_true, if_false, Option.isSome_map]

theorem netsync_sys {o : Opts} {ao : AppOpts} {s : NetSync.State} {w : Bytes} (hd : s.dead w = false) (l : Link.Label) :
    (NetSync.step o ao s (.sys w l)).isSome = (Link.step ao (s.link w) l).isSome := by
  simp only [NetSync.step, hd, Bool.false_eq_true, if_false, Option.isSome_map]

/-- The session of `w` with `v` and the rest of `w` are at work as in C132. -/
theorem fair_view {p : Setting} {σ : Nat → NetSync.State} {ev : Nat → NetSync.Label} (hexec : Exec p σ ev) {w v : Bytes} (h : FairAt p σ ev w v) :
    Fair p.o p.ao (fun n => view (σ n) w v) (fun n => here (σ n) w v (ev n)) := by
  have alive : ∀ n, (σ n).dead w = false := by
    intro n
    by_contra hd
    obtain ⟨m, hm, ht⟩ := h.time (((σ n).link w).app.now + 1) n
    rw [(netsync_dead hexec (by simpa using hd) hm).2] at ht
    omega
  refine ⟨fun n => view_step (hexec n) w v, fun n hn => ?_, h.time, fun n hn => ?_, fun k n hn => ?_, fun n hn => ?_⟩
  · obtain ⟨m, hm, x, hx, he⟩ := h.session n fun m hm => by
      obtain ⟨x, hx, hs⟩ := hn m hm
      exact ⟨x, hx, by rw [netsync_own (alive m) hx]; exact hs⟩
    exact ⟨m, hm, by simp only [he, here, if_true]; exact hx⟩
  · obtain ⟨m, hm, i, he⟩ := h.announced n fun m hm => by
      obtain ⟨i, hs⟩ := hn m hm
      exact ⟨i, by rw [netsync_sys (alive m)]; exact hs⟩
    exact ⟨m, hm, i, by simp only [he, here, if_true]⟩
  · obtain ⟨m, hm, x, he, hx⟩ := h.rest k n fun m hm => by
      obtain ⟨x, hx, hs⟩ := hn m hm
      exact ⟨x, hx, by rw [netsync_sys (alive m)]; exact hs⟩
    exact ⟨m, hm, x, by simp only [he, here, if_true], hx⟩
  · obtain ⟨N, hN, hq, hh, ids, hids⟩ := h.calm n hn
    have quiet : Link.Quiet (.act (.tick 0)) := trivial
    -- a step that is one of the rest of the node is so in the network, or a pause, or a call of another session
    have cases : ∀ m, N ≤ m → ∀ l, here (σ m) w v (ev m) = .sys l → ev m = .sys w l ∨ l = .act (.tick 0) := by
      intro m hm l hl
      cases hev : ev m with
      | sys u k =>
        rw [hev] at hl
        simp only [here] at hl
        split at hl
        · rename_i hu; subst hu; cases hl; exact .inl rfl
        · cases hl; exact .inr rfl
      | sess u x k =>
        rw [hev] at hl
        simp only [here] at hl
        split at hl
        · rename_i hu
          subst hu
          split at hl
          · subst hl
            have hst := hexec m
            rw [hev] at hst
            simp only [NetSync.step] at hst
            split at hst <;> cases hst
          · rename_i hx
            split at hl
            · exact absurd hev (hh m hm x hx)
            · cases hl; exact .inr rfl
        · cases hl; exact .inr rfl
    refine ⟨N, hN, fun m l hm hl => ?_, ids, fun m id prev ht hm hl => ?_⟩
    · rcases cases m hm l hl with he | rfl
      · exact hq m hm l he
      · exact quiet
    · rcases cases m hm _ hl with he | he
      · exact hids m id prev ht hm he
      · cases he

/-- C147. In a network in which nodes only synchronise with their peers (or do whatever else in addition), the chain of some node has the blocks
of `c` up to height `H` at some time. Then in the end so has the chain of each node to which there is a way from it, each node on the way
following the one before (`Follows`): however long the way, and though the peers on it are behind at first themselves. -/
theorem C147_spreads_partial (p : Setting) (hb : p.o.batch.toNat < 2 ^ 32) (hK : p.K < p.o.batch.toNat) (ho : GoodOpts p.ao)
    (hf : ∀ k, 0 < k → k ≤ p.M → Faithful p.codec (p.c.blk k)) (hsound : Sound p.c p.M) (hnum : Numbered p.c p.M)
    (σ : Nat → NetSync.State) (ev : Nat → NetSync.Label) (hexec : Exec p σ ev) (v w : Bytes) (H : Nat) (hH : H ≤ p.M) (N0 : Nat)
    (hv : HasUpto ((σ N0).link v) p.c H) (hway : Way p σ ev v w) :
    ∃ N, ∀ n, N ≤ n → HasUpto ((σ n).link w) p.c H := by
  induction hway with
  | refl => exact ⟨N0, fun n hn => netsync_keeps hexec hn hv⟩
  | @tail u w _ hfol ih =>
    obtain ⟨N1, hN1⟩ := ih
    refine C132_follows_partial p.o hb p.K hK p.ao ho p.codec p.remote p.net p.c H p.M hf hsound hnum (fun n => view (σ n) w u)
      (fun n => here (σ n) w u (ev n)) (fair_view hexec hfol.fair) hfol.idle hfol.reach hfol.truthful hfol.fit hfol.clean hfol.root hfol.awake hfol.room hfol.patient
      N1 fun n hn => ?_
    obtain ⟨m, hm, e, he, r, l, head, h1, h2, ⟨h3, _, h4⟩, h5, h6⟩ := hfol.rounds n hn
    refine ⟨m, hm, e, by simp only [he, here, if_true], r, l, head, h1, h2, ?_, h3, h5, h6⟩
    split
    · rename_i hle; exact h4 H hH (hN1 m hle)
    · exact Nat.zero_le _

/-- C147, the other side. If any peer at all answers one round of node `w` with a block without header, the process of `w` ends (C41): whatever
happens then, its chain gets nothing any more, from honest peers neither. -/
theorem C147_bad_peer_refuted (p : Setting) (σ : Nat → NetSync.State) (ev : Nat → NetSync.Label) (hexec : Exec p σ ev) (w x : Bytes) (n : Nat)
    (e : SyncEnv) (b : RawBlock) (todo : List RawBlock) (hplan : plan p.o e = b :: todo) (hb : b.header = none)
    (h0 : ev n = .sess w x (.ask e)) (h1 : ev (n + 1) = .sess w x .hand) :
    ∀ m, n + 2 ≤ m → (σ m).link w = (σ n).link w ∧ ∀ l y k, ev m ≠ .sys w l ∧ ev m ≠ .sess w y k := by
  have s0 := hexec n
  have s1 := hexec (n + 1)
  rw [h0] at s0
  rw [h1] at s1
  have hd2 : (σ (n + 2)).dead w = true ∧ (σ (n + 2)).link w = (σ n).link w := by
      simp only [NetSync.step] at s0
      split at s0
      · cases s0
      obtain ⟨t, ht, he⟩ := Option.map_eq_some_iff.1 s0
      simp only [SyncRun.step] at ht
      split at ht
      · rw [hplan] at ht
        cases ht
        have hp1 : ((σ (n + 1)).sess w x).phase = .handing (b :: todo) := by rw [← he]; simp
        have hl1 : (σ (n + 1)).link w = (σ n).link w := by rw [← he]; simp [view]
        have hbt : b.toBlk = none := by simp [RawBlock.toBlk, hb]
        simp only [NetSync.step] at s1
        split at s1
        · cases s1
        simp only [SyncRun.step, view, hp1, hbt, Option.map_some, if_true, Option.some.injEq] at s1
        show (σ (n + 1 + 1)).dead w = true ∧ (σ (n + 1 + 1)).link w = _
        rw [← s1]
        exact ⟨by simp, by simp [hl1]⟩
      · cases ht
  intro m hm
  obtain ⟨hdm, hl⟩ := netsync_dead hexec hd2.1 hm
  refine ⟨hl.trans hd2.2, fun l y k => ⟨fun he => ?_, fun he => ?_⟩⟩
  · have hst := hexec m
    simp only [he, NetSync.step, hdm, if_true] at hst
    cases hst
  · have hst := hexec m
    simp only [he, NetSync.step, hdm, if_true] at hst
    cases hst

/-! ### Example: three nodes in a row. The first has three blocks; the second synchronises with the first, later the third with the second. -/

/-- An execution of a session, with pauses in between, is as fair: `f n` is the number of steps made up to time `n`. -/
theorem fair_stretch {o : Opts} {ao : AppOpts} {σ : Nat → SyncRun.State} {ev : Nat → SyncRun.Label} (h : Fair o ao σ ev) (f : Nat → Nat) (hf0 : f 0 = 0)
    (hf : ∀ n, f (n + 1) = f n ∨ f (n + 1) = f n + 1) (hinf : ∀ k, ∃ n, k ≤ f n) :
    Fair o ao (fun n => σ (f n)) (fun n => if f (n + 1) = f n then pause else ev (f n)) := by
  have mono : ∀ n m, n ≤ m → f n ≤ f m := by
    intro n m hm
    induction hm with
    | refl => exact Nat.le_refl _
    | @step m _ ih => rcases hf m with h | h <;> (show f n ≤ f (m + 1); omega)
  -- each step is made at some time
  have made : ∀ k, ∃ n, f n = k ∧ f (n + 1) = k + 1 := by
    intro k
    obtain ⟨n, hn⟩ := hinf (k + 1)
    have : ∀ n, k + 1 ≤ f n → ∃ n, f n = k ∧ f (n + 1) = k + 1 := by
      intro n
      induction n with
      | zero => intro h; omega
      | succ n ih =>
        intro h
        by_cases hk : k + 1 ≤ f n
        · exact ih hk
        · rcases hf n with h' | h'
          · omega
          · exact ⟨n, by omega, by omega⟩
    exact this n hn
  have madeLate : ∀ n k, f n ≤ k → ∃ m, n ≤ m ∧ f m = k ∧ f (m + 1) = k + 1 := by
    intro n k hk
    obtain ⟨m, h1, h2⟩ := made k
    refine ⟨m, ?_, h1, h2⟩
    by_contra hlt
    have := mono (m + 1) n (by omega)
    omega
  have all : ∀ {P : SyncRun.State → Prop} (n : Nat), (∀ m, n ≤ m → P (σ (f m))) → ∀ k, f n ≤ k → P (σ k) := by
    intro P n hP k hk
    obtain ⟨m, hm, he, _⟩ := madeLate n k hk
    rw [← he]; exact hP m hm
  refine ⟨fun n => ?_, fun n hn => ?_, fun T n => ?_, fun n hn => ?_, fun k n hn => ?_, fun n hn => ?_⟩
  · split
    · rename_i he; rw [sync_pause, he]
    · rename_i hne
      rw [(hf n).resolve_left hne]; exact h.exec _
  · obtain ⟨k, hk, ho⟩ := h.session (f n) (all (P := fun s => ∃ x, Own x ∧ (SyncRun.step o ao s x).isSome = true) n hn)
    obtain ⟨m, hm, he, he'⟩ := madeLate n k hk
    refine ⟨m, hm, ?_⟩
    rw [if_neg (by omega), he]; exact ho
  · obtain ⟨k, hk, ht⟩ := h.time T (f n)
    obtain ⟨m, hm, he, _⟩ := madeLate n k hk
    exact ⟨m, hm, by rw [he]; exact ht⟩
  · obtain ⟨k, hk, i, hi⟩ := h.announced (f n) (all (P := fun s => ∃ i, (Link.step ao s.link (.deliver i)).isSome = true) n hn)
    obtain ⟨m, hm, he, he'⟩ := madeLate n k hk
    refine ⟨m, hm, i, ?_⟩
    rw [if_neg (by omega), he]; exact hi
  · obtain ⟨j, hj, x, hx, hkx⟩ := h.rest k (f n) (all (P := fun s => ∃ x, k.has x ∧ (Link.step ao s.link (.act x)).isSome = true) n hn)
    obtain ⟨m, hm, he, he'⟩ := madeLate n j hj
    refine ⟨m, hm, x, ?_, hkx⟩
    rw [if_neg (by omega), he]; exact hx
  · obtain ⟨N, hN, hq, ids, hids⟩ := h.calm (f n) (all (P := InCall) n hn)
    obtain ⟨m, hm, he, he'⟩ := madeLate n N hN
    refine ⟨m, hm, fun j l hj hl => ?_, ids, fun j id prev ht hj hl => ?_⟩
    · split at hl
      · cases hl; trivial
      · exact hq (f j) l (by have := mono m j hj; omega) hl
    · split at hl
      · cases hl
      · exact hids (f j) id prev ht (by have := mono m j hj; omega) hl

private def nsF2 (n : Nat) : Nat := (n + 1) / 2
private def nsF3 (n : Nat) : Nat := n / 2 - 44

private def nsLift (w v : Bytes) : SyncRun.Label → NetSync.Label
  | .sys l => .sys w l
  | l => .sess w v l

private def nsEv (n : Nat) : NetSync.Label :=
  if n % 2 = 0 then nsLift [2] [1] (scEv (n / 2)) else if n / 2 < 44 then .sys [3] (.act (.tick 0)) else nsLift [3] [2] (scEv (n / 2 - 44))

private def nsSess (s : SyncRun.State) : NetSync.Sess := ⟨s.phase, s.env, s.results⟩

private def nsσ (n : Nat) : NetSync.State where
  link w := if w = [2] then (scσ (nsF2 n)).link else if w = [3] then (scσ (nsF3 n)).link else (scσ 43).link
  sess w v := if w = [2] ∧ v = [1] then nsSess (scσ (nsF2 n)) else if w = [3] ∧ v = [2] then nsSess (scσ (nsF3 n)) else ⟨.idle, none, []⟩
  dead _ := false

private def nsP : Setting :=
  { o := scO, ao := {}, codec := ccCodec, remote := fun _ => 0, net := [7], c := ccChain, K := 1, M := 3 }

private theorem nsAlive : ∀ n < 44, (scσ n).phase ≠ .crashed := by decide +kernel

attribute [local irreducible] scσ scEv

private theorem nsAlive' (n : Nat) : (scσ n).phase ≠ .crashed := by
  obtain ⟨k, hk, j, he, _⟩ := scState n
  rw [he]; exact nsAlive k (by omega)

private theorem nsLift_step {o : Opts} {ao : AppOpts} {s : NetSync.State} {w v : Bytes} {l : SyncRun.Label} {t : SyncRun.State} (hd : s.dead w = false)
    (h : SyncRun.step o ao (view s w v) l = some t) (ht : t.phase ≠ .crashed) :
    NetSync.step o ao s (nsLift w v l) = some { link := Function.update s.link w t.link
                                                sess := Function.update s.sess w (Function.update (s.sess w) v (nsSess t))
                                                dead := s.dead } := by
  cases l with
  | sys l =>
    simp only [SyncRun.step] at h
    obtain ⟨x, hx, rfl⟩ := Option.map_eq_some_iff.1 h
    have hx : Link.step ao (s.link w) l = some x := hx
    simp only [nsLift, NetSync.step, hd, Bool.false_eq_true, if_false, hx, Option.map_some]
    have : nsSess { view s w v with link := x } = s.sess w v := rfl
    rw [this, Function.update_eq_self, Function.update_eq_self]
  | _ => simp only [nsLift, NetSync.step, hd, Bool.false_eq_true, if_false, h, Option.map_some, if_neg ht, nsSess]

private theorem nsView2 (n : Nat) : view (nsσ n) [2] [1] = scσ (nsF2 n) := by simp [view, nsσ, nsSess]
private theorem nsView3 (n : Nat) : view (nsσ n) [3] [2] = scσ (nsF3 n) := by simp [view, nsσ, nsSess]

private theorem nsExec : Exec nsP nsσ nsEv := by
  intro n
  show NetSync.step scO {} (nsσ n) (nsEv n) = some (nsσ (n + 1))
  unfold nsEv
  by_cases h2 : n % 2 = 0
  · rw [if_pos h2]
    have e2 : nsF2 n = n / 2 := by unfold nsF2; omega
    have e2' : nsF2 (n + 1) = n / 2 + 1 := by unfold nsF2; omega
    have e3 : nsF3 (n + 1) = nsF3 n := by unfold nsF3; omega
    rw [nsLift_step rfl (by rw [nsView2, e2]; exact scExec (n / 2)) (nsAlive' _)]
    congr 1
    simp only [nsσ, e2', e3, NetSync.State.mk.injEq, and_true]
    refine ⟨funext fun w => ?_, funext fun w => funext fun v => ?_⟩
    · by_cases hw : w = [2] <;> simp [Function.update, hw]
    · by_cases hw : w = [2]
      · subst hw
        by_cases hv : v = [1] <;> simp [Function.update, hv]
      · simp [Function.update, hw]
  · rw [if_neg h2]
    have e2 : nsF2 (n + 1) = nsF2 n := by unfold nsF2; omega
    split
    · rename_i h3
      have e3 : nsF3 (n + 1) = nsF3 n := by unfold nsF3; omega
      have hp := sync_pause scO {} (view (nsσ n) [3] [2])
      have := nsLift_step (s := nsσ n) (w := [3]) (v := [2]) (l := pause) rfl hp (by rw [nsView3]; exact nsAlive' _)
      rw [show NetSync.Label.sys [3] (.act (.tick 0)) = nsLift [3] [2] pause from rfl, this, nsView3]
      congr 1
      simp only [nsσ, e2, e3, NetSync.State.mk.injEq, and_true]
      refine ⟨funext fun w => ?_, funext fun w => funext fun v => ?_⟩
      · by_cases hw : w = [3] <;> simp [Function.update, hw]
      · by_cases hw : w = [3]
        · subst hw
          by_cases hv : v = [2] <;> simp [Function.update, hv]
        · simp [Function.update, hw]
    · rename_i h3
      have e3 : nsF3 n = n / 2 - 44 := rfl
      have e3' : nsF3 (n + 1) = n / 2 - 44 + 1 := by unfold nsF3; omega
      rw [nsLift_step rfl (by rw [nsView3, e3]; exact scExec (n / 2 - 44)) (nsAlive' _)]
      congr 1
      simp only [nsσ, e3', e2, NetSync.State.mk.injEq, and_true]
      refine ⟨funext fun w => ?_, funext fun w => funext fun v => ?_⟩
      · by_cases hw : w = [3] <;> simp [Function.update, hw]
      · by_cases hw : w = [3]
        · subst hw
          by_cases hv : v = [2] <;> simp [Function.update, hv]
        · simp [Function.update, hw]

private theorem nsHere (s : NetSync.State) (w v : Bytes) (l : SyncRun.Label) : here s w v (nsLift w v l) = l := by
  cases l <;> simp [nsLift, here]

private theorem nsHere' (s : NetSync.State) {u w : Bytes} (x v : Bytes) (h : u ≠ w) (l : SyncRun.Label) : here s w v (nsLift u x l) = pause := by
  cases l <;> simp [nsLift, here, h]

private theorem nsHere2 (n : Nat) : here (nsσ n) [2] [1] (nsEv n) = if nsF2 (n + 1) = nsF2 n then pause else scEv (nsF2 n) := by
  unfold nsEv
  by_cases h2 : n % 2 = 0
  · rw [if_pos h2, nsHere, if_neg (by unfold nsF2; omega)]
    congr 1; unfold nsF2; omega
  · rw [if_neg h2, if_pos (show nsF2 (n + 1) = nsF2 n by unfold nsF2; omega)]
    split
    · exact nsHere' _ [2] [1] (show ([3] : Bytes) ≠ [2] by decide) pause
    · exact nsHere' _ _ _ (by decide) _

private theorem nsHere3 (n : Nat) : here (nsσ n) [3] [2] (nsEv n) = if nsF3 (n + 1) = nsF3 n then pause else scEv (nsF3 n) := by
  unfold nsEv
  by_cases h2 : n % 2 = 0
  · rw [if_pos h2, if_pos (by unfold nsF3; omega)]
    exact nsHere' _ _ _ (by decide) _
  · rw [if_neg h2]
    split
    · rw [if_pos (by unfold nsF3; omega)]; rfl
    · rw [nsHere, if_neg (by unfold nsF3; omega)]; rfl

private theorem nsHas (j : Nat) : HasUpto (scσ (43 + j)).link ccChain 3 := by
  intro i h0 hi
  rw [scTail]
  show ∃ h, _ ∈ (scσ 43).link.accepted
  rw [scEnd.2.2.2.2]
  interval_cases i
  · exact ⟨1, by decide⟩
  · exact ⟨2, by decide⟩
  · exact ⟨3, by decide⟩

private theorem nsServed (j : Nat) {t : Link.State} (ht : HasUpto t ccChain 3) :
    Served ccCodec (fun _ => 0) [7] ccChain 1 3 (scσ (43 + j)).link t (scEnv scR2) := by
  obtain ⟨r, l, head, h1, h2, h3, h4, h5, h6⟩ := scHonest j
  have h3' : head.height.toNat = 3 := by omega
  exact ⟨r, l, head, h1, h2, ⟨h4, by rw [h3']; exact ht, fun k hk _ => by omega⟩, h5, h6⟩

/-- What is assumed of a node in `Follows`, for a node that does the steps of the example of C132, with pauses. -/
private theorem nsFollows {v w : Bytes} (f : Nat → Nat) (hf0 : f 0 = 0) (hf : ∀ n, f (n + 1) = f n ∨ f (n + 1) = f n + 1) (hinf : ∀ k, ∃ n, k ≤ f n)
    (hview : ∀ n, view (nsσ n) w v = scσ (f n)) (hhere : ∀ n, here (nsσ n) w v (nsEv n) = if f (n + 1) = f n then pause else scEv (f n))
    (hrounds : ∀ n, ∃ m, n ≤ m ∧ ∃ e, nsEv m = .sess w v (.ask e) ∧ Served ccCodec (fun _ => 0) [7] ccChain 1 3 (scσ (f m)).link ((nsσ m).link v) e)
    (honly : ∀ m u k, nsEv m = .sess w u k → u = v) :
    Follows nsP nsσ nsEv v w := by
  have hlink : ∀ n, (nsσ n).link w = (scσ (f n)).link := fun n => congrArg SyncRun.State.link (hview n)
  have hphase : ∀ n, ((nsσ n).sess w v).phase = (scσ (f n)).phase := fun n => congrArg SyncRun.State.phase (hview n)
  have hclean : Clean (· ∈ [ccB1, ccB2, ccB3]) (scσ 43).link.app.log := (handed_of scEnd.1).clean
  have hlog : ∀ n x, x ∈ (scσ n).link.app.log → x ∈ (scσ 43).link.app.log := by
    intro n
    obtain ⟨k, hk, j, he, _⟩ := scState n
    rw [he]; exact (scChecks k hk).2.2.2.2
  constructor
  · rw [hphase, hf0]; exact scPhase0
  · intro n _
    obtain ⟨m, hm, e, he, hs⟩ := hrounds n
    exact ⟨m, hm, e, he, by rw [hlink]; exact hs⟩
  · have hfair : Fair scO {} (fun n => view (nsσ n) w v) (fun n => here (nsσ n) w v (nsEv n)) := by
      rw [show (fun n => view (nsσ n) w v) = fun n => scσ (f n) from funext hview,
        show (fun n => here (nsσ n) w v (nsEv n)) = _ from funext hhere]
      exact fair_stretch scFair f hf0 hf hinf
    -- at `w` no other session does anything
    have back : ∀ m l, here (nsσ m) w v (nsEv m) = l → (∃ k, l = .sys k ∧ (nsEv m = .sys w k ∨ l = pause)) ∨ nsEv m = .sess w v l := by
      intro m l hl
      have := honly m
      cases hev : nsEv m with
      | sys u k =>
        rw [hev] at hl
        simp only [here] at hl
        split at hl
        · rename_i hu; subst hu; exact .inl ⟨k, hl.symm, .inl rfl⟩
        · exact .inl ⟨_, hl.symm, .inr hl.symm⟩
      | sess u x k =>
        rw [hev] at hl this
        simp only [here] at hl
        split at hl
        · rename_i hu
          subst hu
          rw [if_pos (this x k rfl)] at hl
          rw [hl, this x k rfl]; exact .inr rfl
        · exact .inl ⟨_, hl.symm, .inr hl.symm⟩
    refine ⟨fun n hn => ?_, hfair.time, fun n hn => ?_, fun k n hn => ?_, fun n hn => ?_⟩
    · obtain ⟨m, hm, ho⟩ := hfair.session n fun m hm => by
        obtain ⟨x, hx, hs⟩ := hn m hm
        exact ⟨x, hx, by rw [netsync_own rfl hx] at hs; exact hs⟩
      rcases back m _ rfl with ⟨k, hk, _⟩ | he
      · rw [hk] at ho; cases ho
      · exact ⟨m, hm, _, ho, he⟩
    · obtain ⟨m, hm, i, he⟩ := hfair.announced n fun m hm => by
        obtain ⟨i, hs⟩ := hn m hm
        exact ⟨i, by rw [netsync_sys rfl] at hs; exact hs⟩
      rcases back m _ he with ⟨k, hk, hk' | hk'⟩ | he
      · cases hk; exact ⟨m, hm, i, hk'⟩
      · cases hk'
      · have := nsExec m; rw [he] at this; simp [NetSync.step] at this
    · obtain ⟨m, hm, x, he, hx⟩ := hfair.rest k n fun m hm => by
        obtain ⟨x, hx, hs⟩ := hn m hm
        exact ⟨x, hx, by rw [netsync_sys rfl] at hs; exact hs⟩
      rcases back m _ he with ⟨k', hk, hk' | hk'⟩ | he
      · cases hk; exact ⟨m, hm, x, hk', hx⟩
      · cases hk'; cases k <;> cases hx
      · have := nsExec m; rw [he] at this; simp [NetSync.step] at this
    · obtain ⟨N, hN, hq, ids, hids⟩ := hfair.calm n hn
      refine ⟨N, hN, fun m hm l hl => hq m l hm ?_, fun m _ u hu he => hu (honly m u _ he), ids, fun m id prev ht hm hl => hids m id prev ht hm ?_⟩ <;>
        simp only [hl, here, if_true]
  · rw [hlink, hf0]
    show Reach {} (Fit (Upto ccChain 3) {}) _
    rw [ccUpto]; exact (scReach 0).1
  · intro n
    rw [hlink]
    show Truthful (Upto ccChain 3) _
    rw [ccUpto]; exact scTruth _
  · intro n l hl
    rw [hlink]
    show Fit (Upto ccChain 3) {} _ _
    rw [ccUpto]
    rw [hhere] at hl
    split at hl
    · cases hl
      refine ⟨scTruth _, ?_⟩
      rintro b _ _ (⟨i, m, hc, _⟩ | ⟨i, c, hc, _⟩) <;> cases hc
    · exact (scReach _).2 l hl
  · intro n
    rw [hlink]
    show Clean (Upto ccChain 3) _
    rw [ccUpto]; exact hclean.back (hlog _)
  · rw [hlink, hf0]; exact scBegin
  · intro n
    rw [hlink]
    obtain ⟨k, hk, j, he, _⟩ := scState (f n)
    rw [he]; exact (scChecks k hk).2.2.1
  · intro n
    rw [hlink]
    obtain ⟨k, hk, j, he, _⟩ := scState (f n)
    rw [he]; exact (scChecks k hk).2.2.2.1
  · intro n r b todo _ hr
    rw [hlink] at hr
    exact absurd (List.all_eq_true.1 scEnd.2.1 _ (hlog _ _ hr)) (by simp [scTimeout])

private theorem nsLift_sess {w v u x : Bytes} {l k : SyncRun.Label} (h : nsLift w v l = .sess u x k) : w = u ∧ x = v := by
  cases l <;> simp only [nsLift] at h <;> cases h <;> exact ⟨rfl, rfl⟩

private theorem nsOnly2 (m : Nat) (u : Bytes) (k : SyncRun.Label) (h : nsEv m = .sess [2] u k) : u = [1] := by
  unfold nsEv at h
  split at h
  · exact (nsLift_sess h).2
  · split at h
    · cases h
    · exact absurd (nsLift_sess h).1 (by decide)

private theorem nsOnly3 (m : Nat) (u : Bytes) (k : SyncRun.Label) (h : nsEv m = .sess [3] u k) : u = [2] := by
  unfold nsEv at h
  split at h
  · exact absurd (nsLift_sess h).1 (by decide)
  · split at h
    · cases h
    · exact (nsLift_sess h).2

private theorem nsFollows2 : Follows nsP nsσ nsEv [1] [2] := by
  refine nsFollows nsF2 rfl (fun n => by unfold nsF2; omega) (fun k => ⟨2 * k, by unfold nsF2; omega⟩) nsView2 nsHere2 (fun n => ?_) fun m u k he => ?_
  swap
  · exact nsOnly2 m u k he
  refine ⟨2 * (43 + 2 * n), by omega, scEnv scR2, ?_, ?_⟩
  · unfold nsEv
    rw [if_pos (by omega), show 2 * (43 + 2 * n) / 2 = 43 + 2 * n by omega, scEv_tail, if_neg (by omega)]
    rfl
  · rw [show nsF2 (2 * (43 + 2 * n)) = 43 + 2 * n by unfold nsF2; omega]
    exact nsServed _ (nsHas 0)

private theorem nsFollows3 : Follows nsP nsσ nsEv [2] [3] := by
  refine nsFollows nsF3 rfl (fun n => by unfold nsF3; omega) (fun k => ⟨2 * (k + 44), by unfold nsF3; omega⟩) nsView3 nsHere3 (fun n => ?_) fun m u k he => ?_
  swap
  · exact nsOnly3 m u k he
  refine ⟨2 * (87 + 2 * n) + 1, by omega, scEnv scR2, ?_, ?_⟩
  · unfold nsEv
    rw [if_neg (by omega), if_neg (by omega), show (2 * (87 + 2 * n) + 1) / 2 - 44 = 43 + 2 * n by omega, scEv_tail, if_neg (by omega)]
    rfl
  · rw [show nsF3 (2 * (87 + 2 * n) + 1) = 43 + 2 * n by unfold nsF3; omega]
    refine nsServed _ ?_
    show HasUpto (scσ (nsF2 _)).link ccChain 3
    rw [show nsF2 (2 * (87 + 2 * n) + 1) = 43 + (45 + 2 * n) by unfold nsF2; omega]
    exact nsHas _

/-- The third node, which begins with none of the blocks and never asks the first, has them in the end. -/
example : ¬ HasUpto ((nsσ 0).link [3]) ccChain 1 ∧ ∃ N, ∀ n, N ≤ n → HasUpto ((nsσ n).link [3]) ccChain 3 := by
  constructor
  · intro h
    have := h 1 (by decide) (by decide)
    rw [show (nsσ 0).link [3] = (scσ 0).link from rfl, scLink0] at this
    revert this
    decide +kernel
  refine C147_spreads_partial nsP (by decide) (by decide) ⟨by decide, by decide⟩ ?_ ⟨?_, ?_⟩ ?_ nsσ nsEv nsExec [1] [3] 3 (by decide) 0 (nsHas 0)
    ((Relation.ReflTransGen.single nsFollows2).tail nsFollows3)
  · intro k h0 (h3 : k ≤ 3)
    refine ⟨_, rfl, ?_⟩
    interval_cases k <;> rfl
  · intro k h0 (h3 : k ≤ 3)
    interval_cases k <;> exact ⟨_, rfl, rfl⟩
  · intro k h0 (h3 : k < 3) x hx
    interval_cases k <;> (cases hx; rfl)
  · intro k h0 (h3 : k ≤ 3) x hx
    interval_cases k <;> (cases hx; rfl)

/-! ### Example: the second node asks a peer `[9]` first, which answers with a block without header -/

private def nsEvil : SyncEnv :=
  { lib := ⟨[], 0⟩, peerHead := .ok ([8], 1), blocksByID := fun _ => .ok [0], ancestor := fun _ _ => .ok [], apply := fun _ _ => none,
    blocks := fun _ _ _ => .ok [⟨some [8], none, [], []⟩] }

private theorem nsEvil_plan : plan scO nsEvil = [⟨some [8], none, [], []⟩] := by decide +kernel

private def nsBadEv : Nat → NetSync.Label
  | 0 => .sess [2] [9] (.ask nsEvil)
  | 1 => .sess [2] [9] .hand
  | _ => .sys [1] (.act (.tick 1))

private def nsBad : Nat → NetSync.State
  | 0 => nsσ 0
  | n + 1 => (NetSync.step scO {} (nsBad n) (nsBadEv n)).getD (nsBad n)

private theorem nsBadExec : Exec nsP nsBad nsBadEv := by
  have key : ∀ n, (NetSync.step scO {} (nsBad n) (nsBadEv n)).isSome = true → NetSync.step scO {} (nsBad n) (nsBadEv n) = some (nsBad (n + 1)) := by
    intro n h
    obtain ⟨t, ht⟩ := Option.isSome_iff_exists.1 h
    rw [ht]
    show some t = some ((NetSync.step scO {} (nsBad n) (nsBadEv n)).getD (nsBad n))
    rw [ht, Option.getD_some]
  have h0 : NetSync.step scO {} (nsBad 0) (nsBadEv 0) = some (nsBad 1) := by
    apply key
    show (NetSync.step scO {} (nsσ 0) (.sess [2] [9] (.ask nsEvil))).isSome = true
    simp [NetSync.step, SyncRun.step, view, nsσ, nsEvil_plan]
  have h1 : NetSync.step scO {} (nsBad 1) (nsBadEv 1) = some (nsBad 2) := by
    apply key
    have e : NetSync.step scO {} (nsσ 0) (.sess [2] [9] (.ask nsEvil)) = some (nsBad 1) := h0
    simp only [NetSync.step, SyncRun.step, view, nsσ, nsEvil_plan] at e
    simp at e
    show (NetSync.step scO {} (nsBad 1) (.sess [2] [9] .hand)).isSome = true
    rw [← e]
    simp [NetSync.step, SyncRun.step, view, RawBlock.toBlk]
  have hd : ∀ n, (nsBad n).dead [1] = false := by
    intro n
    induction n with
    | zero => rfl
    | succ n ih =>
      show ((NetSync.step scO {} (nsBad n) (nsBadEv n)).getD (nsBad n)).dead [1] = false
      cases hst : NetSync.step scO {} (nsBad n) (nsBadEv n) with
      | none => exact ih
      | some t =>
        rw [Option.getD_some]
        match n with
        | 0 | 1 =>
          simp only [nsBadEv, NetSync.step] at hst
          split at hst
          · cases hst
          obtain ⟨u, _, rfl⟩ := Option.map_eq_some_iff.1 hst
          show (if u.phase = .crashed then _ else _ : Bytes → Bool) [1] = false
          split
          · rw [Function.update_of_ne (by decide)]; exact ih
          · exact ih
        | n + 2 =>
          simp only [nsBadEv, NetSync.step, ih, Bool.false_eq_true, if_false] at hst
          obtain ⟨u, _, rfl⟩ := Option.map_eq_some_iff.1 hst
          exact ih
  intro n
  match n with
  | 0 => exact h0
  | 1 => exact h1
  | n + 2 =>
    refine key _ ?_
    simp [nsBadEv, NetSync.step, hd, Link.step, App.step]

example : HasUpto ((nsBad 0).link [1]) ccChain 3 ∧ ∀ n, ¬ HasUpto ((nsBad (n + 2)).link [2]) ccChain 1 := by
  refine ⟨nsHas 0, fun n h => ?_⟩
  have hb := (C147_bad_peer_refuted nsP nsBad nsBadEv nsBadExec [2] [9] 0 nsEvil _ _ nsEvil_plan rfl rfl rfl (n + 2) (by omega)).1
  rw [hb] at h
  have := h 1 (by decide) (by decide)
  rw [show (nsBad 0).link [2] = (scσ 0).link from rfl, scLink0] at this
  revert this
  decide +kernel

end KP2P

import Verif.Proof.RacesLocal
/-!
# Mutexes are held briefly: scanning programs and executions
-/

namespace KP2P.Races

/-- The lock held and the accesses made under it so far; `none`: the program does something else while it holds a lock. -/
def scan1 : Option (Option (Lock × Nat)) → Op → Option (Option (Lock × Nat))
  | some none, .acq l => some (some (l, 0))
  | some none, .rel _ => none
  | some none, _ => some none
  | some (some (l, n)), .acc _ _ => if n < 5 then some (some (l, n + 1)) else none
  | some (some (l, _)), .rel l' => if l' = l then some none else none
  | some (some _), _ => none
  | none, _ => none

def scan (s : Option (Option (Lock × Nat))) (os : List Op) : Option (Option (Lock × Nat)) := os.foldl scan1 s

theorem scan_append (s) (x y : List Op) : scan s (x ++ y) = scan (scan s x) y := List.foldl_append

theorem scan_none (os : List Op) : scan none os = none := by
  induction os with
  | nil => rfl
  | cons o os ih => exact ih

def lockOp : Op → Bool
  | .acq _ | .rel _ => true
  | _ => false

theorem scan_quiet {os : List Op} (h : os.all (fun o => !lockOp o) = true) : scan (some none) os = some none := by
  induction os with
  | nil => rfl
  | cons o os ih =>
    simp only [List.all_cons, Bool.and_eq_true] at h
    have : scan1 (some none) o = some none := by
      cases o <;> first | rfl | cases h.1
    have ih' := ih h.2
    simp only [scan, List.foldl_cons, this] at ih' ⊢
    exact ih'

local macro "quiet" : tactic => `(tactic| (refine scan_quiet ?_; simp [lockOp]))

theorem scan_call {k : Kind} {h c : List Op} (hc : Call k h c) : scan (some none) c = some none := by
  cases hc with
  | construct t ws => simp only [construct]; quiet
  | close h0 b₁ b₂ c => cases b₁ <;> cases b₂ <;> cases c <;> rfl
  | amqpBlock n t₁ t₂ on => cases on <;> rfl
  | amqpTx n on => cases on <;> rfl
  | toggleOff b₁ b₂ c => cases b₁ <;> cases b₂ <;> cases c <;> rfl
  | starter b t on => cases on <;> simp [scan, scan1, topicStart]
  | mgrOther w => cases w <;> rfl
  | handshake s hn w => cases w <;> rfl
  | round s w => cases w <;> rfl
  | validateBlock n i => rfl
  | validateTx n i => rfl
  | roundBlock s n i => rfl
  | appNew n i t more => quiet
  | appStatus n i kids gone => quiet
  | appForks n i kids gone =>
    rw [List.append_assoc, List.append_assoc, ← List.append_assoc (kids.map _), scan_append]
    have : scan (some none) ([Op.acc .rd .appConst, .recv ⟨.forkHeads, i, n⟩, .acc .rd .lib, .acc .rd (.blob n), .acc .ast .lib] ++ watchdogPurge ++
        [.acc .rd .tables, .acc .wr .tables]) = some none := rfl
    rw [this]; quiet
  | appBroadcast n i kids =>
    rw [List.append_assoc, scan_append]
    have : scan (some none) ([Op.acc .rd .appConst, .recv ⟨.blockBroadcast, i, n⟩] ++ cacheCheck n ++
        [.acc .rd (.blob n), .acc .rd .tables, .acc .wr .tables]) = some none := rfl
    rw [this]; quiet
  | _ => rfl

theorem scan_prog {k : Kind} {h : List Op} (hp : Prog k h) : scan (some none) h = some none := by
  induction hp with
  | nil => rfl
  | call _ hc ih => rw [scan_append, ih, scan_call hc]

/-- Programs of executions never fail the scan. -/
theorem scan_hist {tr : List Ev} (h : Exec tr) (t : Tid) : scan (some none) (hist t tr) ≠ none := by
  by_cases hk : ∃ k, kindOf t tr = some k
  · obtain ⟨k, hk⟩ := hk
    obtain ⟨p, hp, rest, rfl⟩ := h.progs t k hk
    intro hn
    have := scan_prog hp
    rw [scan_append, hn, scan_none] at this
    cases this
  · have hf : ¬ Forked t tr := fun hf => hk hf.kind
    have h0 : t ≠ 0 := by rintro rfl; exact hk ⟨.main, by rw [kindOf_not hf, if_pos rfl]⟩
    rw [hist_nil]
    · simp [scan]
    · rintro e he rfl
      rcases (fine_of_exec h).forked he with h1 | h1
      · exact h0 h1
      · exact hf h1

theorem Exec.init {tr s : List Ev} (h : Exec (tr ++ s)) : Exec tr := by
  refine ⟨fun pre e post he => h.sched pre e (post ++ s) (by rw [he]; simp), fun t k hk => ?_⟩
  have hk' : kindOf t (tr ++ s) = some k := by
    by_cases hf : Forked t tr
    · rw [kindOf_append_forked hf, hk]
    · rw [kindOf_not hf] at hk
      have h0 : t = 0 := by
        by_contra h0; rw [if_neg h0] at hk; cases hk
      rw [if_pos h0] at hk
      rw [kindOf_not, if_pos h0, hk]
      rintro ⟨x, hx, k', hk'⟩
      obtain ⟨p, q, he⟩ := List.append_of_mem hx
      have := h.sched p x q he
      simp only [enabled, hk'] at this
      exact this.2.1 h0
  obtain ⟨p, hp, hpre⟩ := h.progs t k hk'
  rw [hist_append] at hpre
  exact ⟨p, hp, (List.prefix_append _ _).trans hpre⟩

theorem holder_scan (tr : List Ev) (h : Exec tr) (l : Lock) (t : Tid) :
    holder l tr = some t ↔ ∃ n, scan (some none) (hist t tr) = some (some (l, n)) := by
  induction tr using List.reverseRecOn generalizing l t with
  | nil => simp [holder, hist, scan]
  | append_singleton tr e ih =>
    obtain ⟨x, op⟩ := e
    have hE := h.init
    have ih := ih hE
    have hen := h.sched tr (x, op) [] rfl
    have hsn := scan_hist h x
    have hsp := scan_hist hE x
    rw [holder_snoc]
    have hother : t ≠ x → hist t (tr ++ [(x, op)]) = hist t tr := fun hne => by
      rw [hist_append, hist_single, if_neg (fun h => hne h.symm), List.append_nil]
    have hself : scan (some none) (hist x (tr ++ [(x, op)])) = scan1 (scan (some none) (hist x tr)) op := by
      rw [hist_append, hist_single, if_pos rfl, scan_append]; rfl
    rw [hself] at hsn
    by_cases htx : t = x
    · subst htx
      rw [hself]
      rcases hs : scan (some none) (hist t tr) with _ | _ | ⟨l0, n0⟩
      · exact absurd hs hsp
      · -- holds nothing
        have hno : ∀ l, holder l tr ≠ some t := fun l hl => by
          obtain ⟨n, hn⟩ := (ih l t).1 hl; rw [hs] at hn; cases hn
        cases op with
        | acq l' =>
          simp only [scan1, Option.some.injEq, Prod.mk.injEq]
          by_cases hl : l' = l
          · simp [hl]
          · simp [hl, hno l]
        | rel l' => exact absurd hen.2 (hno l')
        | _ => simp only [scan1]; simp [hno l]
      · -- holds `l0`
        have hh : holder l0 tr = some t := (ih l0 t).2 ⟨n0, hs⟩
        have honly : ∀ l, holder l tr = some t ↔ l = l0 := fun l => by
          rw [ih l t, hs]
          constructor
          · rintro ⟨n, hn⟩; simp only [Option.some.injEq, Prod.mk.injEq] at hn; exact hn.1.symm
          · rintro rfl; exact ⟨n0, rfl⟩
        rw [hs] at hsn
        cases op with
        | acc m f =>
          simp only [scan1] at hsn ⊢
          split at hsn
          · rename_i hlt
            rw [if_pos hlt, honly l]
            constructor
            · rintro rfl; exact ⟨_, rfl⟩
            · rintro ⟨n, hn⟩; simp only [Option.some.injEq, Prod.mk.injEq] at hn; exact hn.1.symm
          · exact absurd rfl hsn
        | rel l' =>
          have hl' : l' = l0 := (honly l').1 hen.2
          subst hl'
          simp only [scan1, if_true]
          by_cases hl : l' = l
          · simp [hl]
          · rw [if_neg hl, honly l]
            simp [Ne.symm hl]
        | _ => exact absurd rfl hsn
    · rw [hother htx]
      rw [← ih l t]
      cases op with
      | acq l' =>
        simp only
        split
        · rename_i hl; subst hl
          have : holder l' tr = none := hen.2
          rw [this]
          simp [Ne.symm htx]
        · rfl
      | rel l' =>
        simp only
        split
        · rename_i hl; subst hl
          have : holder l' tr = some x := hen.2
          rw [this]
          simp [Ne.symm htx]
        · rfl
      | _ => rfl

theorem acc_extends {tr : List Ev} (h : Exec tr) {t : Tid} {k : Kind} {op : Op} {rest : List Op} (hk : kindOf t tr = some k)
    (hp : Prog k (hist t tr ++ op :: rest)) (hop : (∃ m f, op = .acc m f) ∨ ∃ l, op = .rel l ∧ holder l tr = some t) :
    Exec (tr ++ [(t, op)]) := by
  have hnf : ∀ x k', op ≠ .fork x k' := by
    rintro x k' rfl
    rcases hop with ⟨_, _, h⟩ | ⟨_, h, _⟩ <;> cases h
  have hkeep : ∀ t', kindOf t' (tr ++ [(t, op)]) = kindOf t' tr := by
    intro t'
    by_cases hf : Forked t' tr
    · exact kindOf_append_forked hf _
    · rw [kindOf_append_not hf, kindOf_not hf]
      cases op with
      | fork x k' => exact absurd rfl (hnf x k')
      | _ => rfl
  refine ⟨?_, ?_⟩
  · intro pre e post he
    rcases List.eq_nil_or_concat post with rfl | ⟨post', z, rfl⟩
    · obtain ⟨rfl, he2⟩ := List.append_inj' he rfl
      simp only [List.cons.injEq, and_true] at he2
      subst he2
      refine ⟨?_, ?_⟩
      · by_cases hf : Forked t tr
        · obtain ⟨x, hx, k', hk'⟩ := hf; exact .inr ⟨x, hx, k', hk'⟩
        · rw [kindOf_not hf] at hk
          by_cases h0 : t = 0
          · exact .inl h0
          · rw [if_neg h0] at hk; cases hk
      · rcases hop with ⟨m, f, rfl⟩ | ⟨l, rfl, hl⟩
        · trivial
        · exact hl
    · refine h.sched pre e post' ?_
      rw [List.concat_eq_append, ← List.cons_append, ← List.append_assoc] at he
      exact (List.append_inj' he rfl).1
  · intro t' k' hk'
    rw [hkeep] at hk'
    by_cases ht : t' = t
    · subst ht
      rw [hk] at hk'; cases hk'
      refine ⟨_, hp, ?_⟩
      rw [hist_append, hist_single, if_pos rfl]
      exact ⟨rest, by simp⟩
    · obtain ⟨p, hp', hpre⟩ := h.progs t' k' hk'
      refine ⟨p, hp', ?_⟩
      rw [hist_append, hist_single, if_neg (fun h => ht h.symm), List.append_nil]
      exact hpre

/-- The holder of a lock gets to releasing it by itself. -/
theorem released {tr : List Ev} (h : Exec tr) {l : Lock} {t : Tid} (hl : holder l tr = some t) :
    ∃ as : List Op, as.length ≤ 5 ∧ (∀ o ∈ as, ∃ m f, o = .acc m f) ∧ Exec (tr ++ as.map (fun o => (t, o)) ++ [(t, .rel l)]) := by
  have hk : ∃ k, kindOf t tr = some k := by
    by_cases hf : Forked t tr
    · exact hf.kind
    · by_cases h0 : t = 0
      · exact ⟨.main, by rw [kindOf_not hf, if_pos h0]⟩
      · obtain ⟨n, hn⟩ := (holder_scan tr h l t).1 hl
        rw [hist_nil] at hn
        · simp [scan] at hn
        · rintro e he rfl
          rcases (fine_of_exec h).forked he with h1 | h1
          · exact absurd h1 h0
          · exact absurd h1 hf
  obtain ⟨k, hk⟩ := hk
  obtain ⟨p, hp, rest, hrest⟩ := h.progs t k hk
  obtain ⟨n, hn⟩ := (holder_scan tr h l t).1 hl
  have hsc := scan_prog hp
  rw [← hrest, scan_append, hn] at hsc
  have key : ∀ (rest : List Op) (n : Nat) (tr : List Ev), Exec tr → kindOf t tr = some k → Prog k (hist t tr ++ rest) → holder l tr = some t →
      n ≤ 5 → scan (some (some (l, n))) rest = some none →
      ∃ as : List Op, as.length + n ≤ 5 ∧ (∀ o ∈ as, ∃ m f, o = .acc m f) ∧ Exec (tr ++ as.map (fun o => (t, o)) ++ [(t, .rel l)]) := by
    intro rest
    induction rest with
    | nil => intro n tr _ _ _ _ _ hs; cases hs
    | cons o rest ih =>
      intro n tr hE hk hp hl hn' hs
      have hcons : scan (some (some (l, n))) (o :: rest) = scan (scan1 (some (some (l, n))) o) rest := rfl
      rw [hcons] at hs
      cases o with
      | acc m f =>
        simp only [scan1] at hs
        split at hs
        · rename_i hlt
          have hE' := acc_extends hE hk hp (.inl ⟨m, f, rfl⟩)
          have hh : hist t (tr ++ [(t, Op.acc m f)]) = hist t tr ++ [.acc m f] := by rw [hist_append, hist_single, if_pos rfl]
          have hk' : kindOf t (tr ++ [(t, Op.acc m f)]) = some k := by
            by_cases hf : Forked t tr
            · rw [kindOf_append_forked hf, hk]
            · rw [kindOf_append_not hf]; rw [kindOf_not hf] at hk; exact hk
          obtain ⟨as, h1, h2, h3⟩ := ih (n + 1) _ hE' hk' (by rw [hh]; simpa using hp) (by rw [holder_snoc]; exact hl) (by omega) hs
          refine ⟨.acc m f :: as, by simp only [List.length_cons]; omega, ?_, by simpa using h3⟩
          intro o ho
          rcases List.mem_cons.1 ho with rfl | ho
          · exact ⟨m, f, rfl⟩
          · exact h2 o ho
        · rw [scan_none] at hs; cases hs
      | rel l' =>
        simp only [scan1] at hs
        split at hs
        · rename_i hl'; subst hl'
          exact ⟨[], by simpa using hn', by simp, by simpa using acc_extends hE hk hp (.inr ⟨l', rfl, hl⟩)⟩
        · rw [scan_none] at hs; cases hs
      | _ => simp only [scan1] at hs; rw [scan_none] at hs; cases hs
  have hn5 : n ≤ 5 := by
    have : ∀ (os : List Op) (s : Option (Option (Lock × Nat))), (∀ l n, s = some (some (l, n)) → n ≤ 5) → ∀ l n, scan s os = some (some (l, n)) → n ≤ 5 := by
      intro os
      induction os with
      | nil => intro s hs l n hn; exact hs l n hn
      | cons o os ih =>
        intro s hs
        refine ih (scan1 s o) ?_
        intro l n hn
        rcases s with _ | _ | ⟨l0, n0⟩ <;> cases o <;> simp only [scan1, Option.some.injEq, Prod.mk.injEq] at hn <;>
          first
          | (cases hn; done)
          | (obtain ⟨_, rfl⟩ := hn; omega)
          | (split at hn
             · simp only [Option.some.injEq, Prod.mk.injEq] at hn; omega
             · cases hn)
          | (split at hn <;> cases hn)
    exact this (hist t tr) (some none) (by simp) l n hn
  obtain ⟨as, h1, h2, h3⟩ := key rest n tr h hk (by rw [hrest]; exact hp) hl hn5 hsc
  exact ⟨as, by omega, h2, h3⟩

/-! ### Checking concrete executions -/

/-- `enabled`, as a test. -/
def enabledB (tr : List Ev) (e : Ev) : Bool :=
  (e.1 == 0 || tr.any (fun x => match x.2 with | .fork t _ => t == e.1 | _ => false)) &&
  match e.2 with
  | .fork t _ => t != 0 && tr.all (fun x => match x.2 with | .fork t' _ => t' != t | _ => true)
  | .acq l => holder l tr == none
  | .rel l => holder l tr == some e.1
  | .new f => tr.all (fun x => x.2 != .new f)
  | .send m => tr.all (fun x => x.2 != .send m)
  | .recv m => tr.any (fun x => x.2 == .send m) && tr.all (fun x => x.2 != .recv m)
  | _ => true

theorem enabled_of {tr : List Ev} {e : Ev} (h : enabledB tr e = true) : enabled tr e := by
  obtain ⟨t, op⟩ := e
  simp only [enabledB, Bool.and_eq_true, Bool.or_eq_true, beq_iff_eq, List.any_eq_true] at h
  refine ⟨?_, ?_⟩
  · rcases h.1 with h1 | ⟨x, hx, h1⟩
    · exact .inl h1
    · refine .inr ⟨x, hx, ?_⟩
      revert h1
      cases hx2 : x.2 <;> simp
  · have h2 := h.2
    cases op with
    | fork t' k =>
      simp only [Bool.and_eq_true, bne_iff_ne, List.all_eq_true] at h2
      refine ⟨h2.1, fun x hx k' hk' => ?_⟩
      have := h2.2 x hx
      rw [hk'] at this
      simp at this
    | acq l => simpa using h2
    | rel l => simpa using h2
    | new f => simpa [List.all_eq_true] using h2
    | send m => simpa [List.all_eq_true] using h2
    | recv m =>
      simp only [Bool.and_eq_true, List.any_eq_true, beq_iff_eq, List.all_eq_true, bne_iff_ne] at h2
      exact h2
    | _ => trivial

def schedB (tr : List Ev) : Bool := (List.range tr.length).all fun i => match tr[i]? with
  | some e => enabledB (tr.take i) e
  | none => true

theorem exec_of (tr : List Ev) (ps : List (Tid × Kind × List Op)) (hs : schedB tr = true)
    (ht : tr.all (fun e => ps.any (fun p => p.1 == e.1)) = true)
    (hp : ∀ p ∈ ps, kindOf p.1 tr = some p.2.1 ∧ hist p.1 tr <+: p.2.2 ∧ Prog p.2.1 p.2.2) : Exec tr := by
  refine ⟨fun pre e post he => ?_, fun t k hk => ?_⟩
  · apply enabled_of
    simp only [schedB, List.all_eq_true, List.mem_range] at hs
    have := hs pre.length (by rw [he]; simp)
    rw [he] at this
    simpa using this
  · by_cases hx : ∃ p ∈ ps, p.1 = t
    · obtain ⟨p, hps, rfl⟩ := hx
      obtain ⟨h1, h2, h3⟩ := hp p hps
      rw [hk] at h1
      cases h1
      exact ⟨_, h3, h2⟩
    · refine ⟨[], .nil, ?_⟩
      have hn : hist t tr = [] := by
        apply hist_nil
        rintro e he rfl
        simp only [List.all_eq_true, List.any_eq_true, beq_iff_eq] at ht
        obtain ⟨p, h1, h2⟩ := ht e he
        exact hx ⟨p, h1, h2⟩
      rw [hn]
      exact List.prefix_refl _

end KP2P.Races

import Verif.Proof.Applicator
/-!
# Applicator: where blocks and answers come from
-/

namespace KP2P
namespace App

/-- How an application of `b` can end with result `e`. -/
def Outcome (log : List Obs) (b : Blk) (e : Option Err) : Prop :=
  Obs.verdict b e ∈ log ∨ (e = none ∧ Obs.delayTimeout b ∈ log) ∨ e = some (.sentinel .blockIrreversibility)

/-- How a call for `b` can be answered with `e`. -/
def Reply (log : List Obs) (b : Blk) (e : Option Err) : Prop :=
  e = some (.sentinel .maxHeight) ∨ e = some (.sentinel .maxPendingBlocks) ∨
    e = some (.sentinel .blockIrreversibility) ∨ ∃ b', b'.id = b.id ∧ Known log b' ∧ Outcome log b' e

/-- What a log entry says about the rest of the log. -/
def Good (log : List Obs) : Obs → Prop
  | .verdict b _ => Obs.submit b ∈ log
  | .submit b => Known log b
  | .start b => Known log b
  | .delayTimeout b => Known log b
  | .status b _ => Known log b
  | .answer r e => ∃ b, Obs.call r b ∈ log ∧ Reply log b e
  | .returned r e => Obs.answer r e ∈ log ∨ e = some (.sentinel .blockApplicationTimeout)
  | .refused r e => ∃ b x, Obs.call r b ∈ log ∧ e = some x
  | _ => True

structure Prov (s : AState) : Prop where
  newQ : ∀ x ∈ s.newQ, Obs.call x.1 x.2 ∈ s.log
  tries : ∀ x ∈ s.tries, Known s.log x.1
  retries : ∀ x ∈ s.retries, Known s.log x.2
  apps : ∀ a ∈ s.apps, Known s.log a.blk
  rpc : ∀ b, ⟨b, .inRPC⟩ ∈ s.apps → Obs.submit b ∈ s.log
  done : ∀ b e, ⟨b, .done e⟩ ∈ s.apps → Outcome s.log b e
  entries : ∀ id x, s.byId.get id = some x → Known s.log x.block
  chans : ∀ id x r, s.byId.get id = some x → r ∈ x.chans → ∃ b, Obs.call r b ∈ s.log ∧ b.id = id
  good : ∀ x ∈ s.log, Good s.log x
  callLt : ∀ r b, Obs.call r b ∈ s.log → r < s.nextReq
  callInj : ∀ r b b', Obs.call r b ∈ s.log → Obs.call r b' ∈ s.log → b = b'

section mono
variable {log log' : List Obs} (h : ∀ x ∈ log, x ∈ log')
include h

theorem Known.mono {b : Blk} (hk : Known log b) : Known log' b := by
  obtain ⟨r, hr⟩ := hk; exact ⟨r, h _ hr⟩

theorem Outcome.mono {b : Blk} {e : Option Err} (ho : Outcome log b e) : Outcome log' b e := by
  rcases ho with ho | ⟨ho, ho'⟩ | ho
  · exact Or.inl (h _ ho)
  · exact Or.inr (Or.inl ⟨ho, h _ ho'⟩)
  · exact Or.inr (Or.inr ho)

theorem Reply.mono {b : Blk} {e : Option Err} (ho : Reply log b e) : Reply log' b e := by
  rcases ho with ho | ho | ho | ⟨b', h1, h2, h3⟩
  · exact Or.inl ho
  · exact Or.inr (Or.inl ho)
  · exact Or.inr (Or.inr (Or.inl ho))
  · exact Or.inr (Or.inr (Or.inr ⟨b', h1, h2.mono h, h3.mono h⟩))

theorem Good.mono {x : Obs} (hg : Good log x) : Good log' x := by
  cases x with
  | verdict b e => exact h _ hg
  | submit b => exact Known.mono h hg
  | start b => exact Known.mono h hg
  | delayTimeout b => exact Known.mono h hg
  | answer r e => obtain ⟨b, h1, h2⟩ := hg; exact ⟨b, h _ h1, h2.mono h⟩
  | returned r e =>
    rcases hg with hg | hg
    · exact Or.inl (h _ hg)
    · exact Or.inr hg
  | refused r e => obtain ⟨b, x, h1, h2⟩ := hg; exact ⟨b, x, h _ h1, h2⟩
  | call r b => trivial
  | deferred b => trivial
  | status b e => exact Known.mono h hg

end mono

/-- Extension of a state: only the differences have to be justified. -/
theorem Prov.extend {s s' : AState} (h : Prov s) (new : List Obs) (hl : s'.log = new ++ s.log)
    (hnew : ∀ x ∈ new, Good s'.log x) (hcall : ∀ r b, Obs.call r b ∈ new → r = s.nextReq ∧ s'.nextReq = r + 1)
    (hcall' : ∀ r b b', Obs.call r b ∈ new → Obs.call r b' ∈ new → b = b') (hnext : s.nextReq ≤ s'.nextReq)
    (h1 : ∀ x ∈ s'.newQ, x ∈ s.newQ ∨ Obs.call x.1 x.2 ∈ s'.log)
    (h2 : ∀ x ∈ s'.tries, x ∈ s.tries ∨ Known s'.log x.1)
    (h3 : ∀ x ∈ s'.retries, x ∈ s.retries ∨ Known s'.log x.2)
    (h4 : ∀ a ∈ s'.apps, a ∈ s.apps ∨ (Known s'.log a.blk ∧ (a.stage = .inRPC → Obs.submit a.blk ∈ s'.log) ∧
      ∀ e, a.stage = .done e → Outcome s'.log a.blk e))
    (h5 : ∀ id x, s'.byId.get id = some x → (∃ x', s.byId.get id = some x' ∧ x'.block = x.block ∧
        ∀ r ∈ x.chans, r ∈ x'.chans ∨ ∃ b, Obs.call r b ∈ s'.log ∧ b.id = id) ∨
      (Known s'.log x.block ∧ ∀ r ∈ x.chans, ∃ b, Obs.call r b ∈ s'.log ∧ b.id = id)) : Prov s' := by
  have hm : ∀ x ∈ s.log, x ∈ s'.log := fun x hx => by rw [hl]; exact List.mem_append_right _ hx
  refine ⟨?_, ?_, ?_, ?_, ?_, ?_, ?_, ?_, ?_, ?_, ?_⟩
  · intro x hx
    rcases h1 x hx with hx | hx
    · exact hm _ (h.newQ x hx)
    · exact hx
  · intro x hx
    rcases h2 x hx with hx | hx
    · exact (h.tries x hx).mono hm
    · exact hx
  · intro x hx
    rcases h3 x hx with hx | hx
    · exact (h.retries x hx).mono hm
    · exact hx
  · intro a ha
    rcases h4 a ha with ha | ha
    · exact (h.apps a ha).mono hm
    · exact ha.1
  · intro b hb
    rcases h4 _ hb with hb | hb
    · exact hm _ (h.rpc b hb)
    · exact hb.2.1 rfl
  · intro b e hb
    rcases h4 _ hb with hb | hb
    · exact (h.done b e hb).mono hm
    · exact hb.2.2 e rfl
  · intro id x hx
    rcases h5 id x hx with ⟨x', hx', hb, _⟩ | hx
    · rw [← hb]; exact (h.entries id x' hx').mono hm
    · exact hx.1
  · intro id x r hx hr
    rcases h5 id x hx with ⟨x', hx', hb, hc⟩ | hx
    · rcases hc r hr with hc | hc
      · obtain ⟨b, hb1, hb2⟩ := h.chans id x' r hx' hc
        exact ⟨b, hm _ hb1, hb2⟩
      · exact hc
    · exact hx.2 r hr
  · intro x hx
    have hx' := hx
    rw [hl, List.mem_append] at hx
    rcases hx with hx | hx
    · exact hnew x hx
    · exact (h.good x hx).mono hm
  · intro r b hb
    rw [hl, List.mem_append] at hb
    rcases hb with hb | hb
    · have := (hcall r b hb).2; omega
    · have := h.callLt r b hb; omega
  · intro r b b' hb hb'
    rw [hl, List.mem_append] at hb hb'
    rcases hb with hb | hb <;> rcases hb' with hb' | hb'
    · exact hcall' r b b' hb hb'
    · have h1 := (hcall r b hb).1
      have h2 := h.callLt r b' hb'
      omega
    · have h1 := (hcall r b' hb').1
      have h2 := h.callLt r b hb
      omega
    · exact h.callInj r b b' hb hb'

theorem prov_init (hi lib : UInt64) (now : Int) : Prov (init hi lib now) := by
  refine ⟨?_, ?_, ?_, ?_, ?_, ?_, ?_, ?_, ?_, ?_, ?_⟩ <;> simp [init]

theorem log_remove (s : AState) (id : Bytes) (e : Option Err) :
    (removeBlockEntry s id e).log =
      (match s.byId.get id with | none => [] | some x => x.chans.reverse).map (fun r => Obs.answer r e) ++ s.log := by
  unfold removeBlockEntry
  cases hg : s.byId.get id with
  | none => simp
  | some entry => simp [answerAll, List.map_reverse]

theorem log_remove' (s : AState) (id : Bytes) (e : Option Err) :
    (removeBlockEntry s id e).log =
      (((s.byId.get id).map (·.chans)).getD []).reverse.map (fun r => Obs.answer r e) ++ s.log := by
  rw [log_remove]
  cases s.byId.get id <;> rfl

theorem kids_waiting {o : AppOpts} {s : AState} {id : Bytes} {x : Blk × Bool} (h : x ∈ kids o s id) :
    ∃ k e, s.byId.get k = some e ∧ x = (e.block, forceFor o s.now e.block) := by
  unfold kids at h
  split at h
  · cases h
  · obtain ⟨k, _, hk⟩ := List.mem_filterMap.1 h
    obtain ⟨e, he, hx⟩ := Option.map_eq_some_iff.1 hk
    exact ⟨k, e, he, hx.symm⟩

theorem Prov.kids {o : AppOpts} {s : AState} (h : Prov s) {id : Bytes} {x : Blk × Bool} (hx : x ∈ App.kids o s id) :
    Known s.log x.1 := by
  obtain ⟨k, e, he, rfl⟩ := kids_waiting hx
  exact h.entries k e he

theorem mem_of_getElem? {α : Type} {l : List α} {i : Nat} {x : α} (h : l[i]? = some x) : x ∈ l :=
  List.mem_of_getElem? h

/-- A step that only replaces application `i` and prepends log entries. -/
theorem Prov.setApp {s s' : AState} (h : Prov s) {i : Nat} {b : Blk} {st st' : Stage} (ha : s.apps[i]? = some ⟨b, st⟩)
    (new : List Obs) (hl : s'.log = new ++ s.log)
    (hnew : ∀ x ∈ new, Good s'.log x) (hnc : ∀ r c, Obs.call r c ∉ new) (happs : s'.apps = s.apps.set i ⟨b, st'⟩)
    (h1 : s'.newQ = s.newQ) (h2 : s'.tries = s.tries) (h3 : s'.retries = s.retries) (h5 : s'.byId = s.byId)
    (h6 : s'.nextReq = s.nextReq)
    (hst : (st' = .inRPC → Obs.submit b ∈ s'.log) ∧ ∀ e, st' = .done e → Outcome s'.log b e) : Prov s' := by
  have hm : ∀ x ∈ s.log, x ∈ s'.log := fun x hx => by rw [hl]; exact List.mem_append_right _ hx
  refine h.extend new hl hnew (fun r c hc => absurd hc (hnc r c)) (fun r c _ hc => absurd hc (hnc r c)) (by omega)
    (by rw [h1]; exact fun x hx => Or.inl hx) (by rw [h2]; exact fun x hx => Or.inl hx)
    (by rw [h3]; exact fun x hx => Or.inl hx) ?_ ?_
  · intro a ha'
    rw [happs] at ha'
    rcases List.mem_or_eq_of_mem_set ha' with ha' | rfl
    · exact Or.inl ha'
    · exact Or.inr ⟨(h.apps _ (mem_of_getElem? ha)).mono hm, hst.1, hst.2⟩
  · intro id x hx
    rw [h5] at hx
    exact Or.inl ⟨x, hx, rfl, fun r hr => Or.inl hr⟩

theorem prov_step (o : AppOpts) (s : AState) (l : Label) (s' : AState) (hinv : Inv o s) (h : Prov s)
    (hst : step o s l = some s') : Prov s' := by
  have same : ∀ {s' : AState}, s'.byId = s.byId → ∀ id x, s'.byId.get id = some x →
      (∃ x', s.byId.get id = some x' ∧ x'.block = x.block ∧
        ∀ r ∈ x.chans, r ∈ x'.chans ∨ ∃ b, Obs.call r b ∈ s'.log ∧ b.id = id) ∨
      (Known s'.log x.block ∧ ∀ r ∈ x.chans, ∃ b, Obs.call r b ∈ s'.log ∧ b.id = id) := by
    intro s' hs id x hx
    rw [hs] at hx
    exact Or.inl ⟨x, hx, rfl, fun r hr => Or.inl hr⟩
  cases l with
  | applyBlock b =>
    rcases step_applyBlock hst with ⟨e, _, rfl⟩ | ⟨_, rfl⟩
    · refine h.extend [.refused s.nextReq (some e), .call s.nextReq b] rfl ?_ ?_ ?_ (by simp)
        (fun x hx => Or.inl hx) (fun x hx => Or.inl hx) (fun x hx => Or.inl hx) (fun x hx => Or.inl hx) (same rfl)
      · intro x hx
        simp only [List.mem_cons, List.not_mem_nil, or_false] at hx
        rcases hx with rfl | rfl
        · exact ⟨b, e, by simp, rfl⟩
        · trivial
      · intro r c hc; simp at hc; simp [hc.1]
      · intro r c c' hc hc'; simp at hc hc'; rw [hc.2, hc'.2]
    · refine h.extend [.call s.nextReq b] rfl ?_ ?_ ?_ (by simp)
        ?_ (fun x hx => Or.inl hx) (fun x hx => Or.inl hx) (fun x hx => Or.inl hx) (same rfl)
      · intro x hx
        simp only [List.mem_singleton] at hx
        subst hx; trivial
      · intro r c hc; simp at hc; simp [hc.1]
      · intro r c c' hc hc'; simp at hc hc'; rw [hc.2, hc'.2]
      · intro x hx
        rcases List.mem_append.1 hx with hx | hx
        · exact Or.inl hx
        · simp at hx; subst hx; right; simp
  | callerReturns r =>
    obtain ⟨_, e, he, rfl⟩ := step_callerReturns hst
    refine h.extend [.returned r e] rfl ?_ (by simp) (by simp) (by simp)
        (fun x hx => Or.inl hx) (fun x hx => Or.inl hx) (fun x hx => Or.inl hx) (fun x hx => Or.inl hx) (same rfl)
    intro x hx
    simp only [List.mem_singleton] at hx
    subst hx
    left
    unfold answerOf at he
    obtain ⟨ob, hob, hoe⟩ := List.exists_of_findSome?_eq_some he
    cases ob with
    | answer r' e' =>
      simp only at hoe
      split at hoe
      · rename_i hr; subst hr; cases hoe; exact List.mem_cons_of_mem _ hob
      · cases hoe
    | _ => cases hoe
  | callerTimesOut r =>
    obtain ⟨_, rfl⟩ := step_callerTimesOut hst
    refine h.extend [.returned r (some (.sentinel .blockApplicationTimeout))] rfl ?_ (by simp) (by simp) (by simp)
        (fun x hx => Or.inl hx) (fun x hx => Or.inl hx) (fun x hx => Or.inl hx) (fun x hx => Or.inl hx) (same rfl)
    intro x hx
    simp only [List.mem_singleton] at hx
    subst hx
    exact Or.inr rfl
  | newBlock i =>
    obtain ⟨_, r, b, hq, rfl⟩ := step_newBlock hst
    have hcall : Obs.call r b ∈ s.log := h.newQ _ (mem_of_getElem? hq)
    have hnewQ : ∀ x ∈ s.newQ.eraseIdx i, x ∈ s.newQ := fun x hx => List.mem_of_mem_eraseIdx hx
    unfold handleNewBlock
    cases ha : admission o { s with newQ := s.newQ.eraseIdx i } b with
    | some e =>
      simp only
      refine h.extend [.answer r (some e)] rfl ?_ (by simp) (by simp) (by simp [answerAll])
        (fun x hx => Or.inl (hnewQ x hx)) (fun x hx => Or.inl hx) (fun x hx => Or.inl hx) (fun x hx => Or.inl hx) (same rfl)
      intro x hx
      simp only [List.mem_singleton] at hx
      subst hx
      refine ⟨b, List.mem_append_right _ hcall, ?_⟩
      unfold admission at ha
      split at ha
      · cases ha; exact Or.inl rfl
      split at ha
      · cases ha; exact Or.inr (Or.inl rfl)
      split at ha
      · cases ha; exact Or.inr (Or.inr (Or.inl rfl))
      cases ha
    | none =>
      simp only
      set s0 : AState := { s with newQ := s.newQ.eraseIdx i } with hs0
      obtain ⟨m, p, hh', hf⟩ := addTables_frame s0 r b
      have htab : ∀ (log : List Obs), (∀ x ∈ s.log, x ∈ log) → ∀ id x, (addTables s0 r b).byId.get id = some x →
          (∃ x', s.byId.get id = some x' ∧ x'.block = x.block ∧
            ∀ r ∈ x.chans, r ∈ x'.chans ∨ ∃ b, Obs.call r b ∈ log ∧ b.id = id) ∨
          (Known log x.block ∧ ∀ r ∈ x.chans, ∃ b, Obs.call r b ∈ log ∧ b.id = id) := by
        intro log hm id x hx
        rw [get_addTables] at hx
        split at hx
        · rename_i hid
          subst hid
          cases hg : s0.byId.get b.id with
          | none =>
            rw [hg] at hx
            simp only [Option.some.injEq] at hx
            subst hx
            right
            refine ⟨⟨r, hm _ hcall⟩, fun r' hr' => ?_⟩
            simp at hr'; subst hr'
            exact ⟨b, hm _ hcall, rfl⟩
          | some old =>
            rw [hg] at hx
            simp only [Option.some.injEq] at hx
            subst hx
            left
            refine ⟨old, rfl, rfl, fun r' hr' => ?_⟩
            rcases List.mem_append.1 hr' with hr' | hr'
            · exact Or.inl hr'
            · simp at hr'; subst hr'
              exact Or.inr ⟨b, hm _ hcall, rfl⟩
        · exact Or.inl ⟨x, hx, rfl, fun r hr => Or.inl hr⟩
      rcases addBlockEntry_cases s0 r b with ⟨_, he⟩ | ⟨_, _, he⟩
      · rw [he]
        refine h.extend [.deferred b] rfl ?_ (by simp) (by simp) ?_ ?_ ?_ ?_ ?_ ?_
        · intro x hx; simp at hx; subst hx; trivial
        · rw [hf]
        · rw [hf]; exact fun x hx => Or.inl (hnewQ x hx)
        · rw [hf]; exact fun x hx => Or.inl hx
        · rw [hf]; exact fun x hx => Or.inl hx
        · rw [hf]; exact fun x hx => Or.inl hx
        · exact htab _ (fun x hx => List.mem_cons_of_mem _ hx)
      · rw [he]
        have hlog : (addTables s0 r b).log = s.log := by rw [hf]
        refine h.extend [] (by simpa using hlog) (by simp) (by simp) (by simp) ?_ ?_ ?_ ?_ ?_ ?_
        · rw [hf]
        · rw [hf]; exact fun x hx => Or.inl (hnewQ x hx)
        · intro x hx
          rcases List.mem_append.1 hx with hx | hx
          · exact Or.inl hx
          · simp at hx; subst hx; right; exact ⟨r, by simpa [hlog] using hcall⟩
        · rw [hf]; exact fun x hx => Or.inl hx
        · rw [hf]; exact fun x hx => Or.inl hx
        · exact htab _ (fun x hx => by simpa [hlog] using hx)
  | forkHeads heads lib =>
    obtain ⟨_, rfl⟩ := step_forkHeads hst
    rw [handleForkHeads_eq]
    set s0 : AState := { s with
      lib := lib, watchdog := s.watchdog.purge lib, tries := s.tries ++ heads.flatMap (App.kids o s) } with hs0
    have hi0 : Idx s0 := hinv.idx.of_eq rfl rfl rfl
    obtain ⟨h1, h2, h3⟩ := evict_spec (heights s.lib lib) s0 hi0
    obtain ⟨rs, hl, hp⟩ := h2.log
    have hm : ∀ x ∈ s.log, x ∈ ((heights s.lib lib).foldl evictHeight s0).log := fun x hx => by
      rw [hl]; exact List.mem_append_right _ hx
    refine h.extend (rs.map fun r => Obs.answer r (some (.sentinel .blockIrreversibility))) hl ?_ ?_ ?_ ?_ ?_ ?_ ?_ ?_ ?_
    · intro x hx
      obtain ⟨r, hr, rfl⟩ := List.mem_map.1 hx
      have : r ∈ s.byId.entries.flatMap (fun x => x.2.chans) := hp.mem_iff.1 (List.mem_append_right _ hr)
      obtain ⟨⟨id, x⟩, hx1, hx2⟩ := List.mem_flatMap.1 this
      obtain ⟨b, hb, _⟩ := h.chans id x r ((GoMap.get_eq_some_iff _ _ _).2 hx1) hx2
      exact ⟨b, hm _ hb, Or.inr (Or.inr (Or.inl rfl))⟩
    · intro r b hc
      obtain ⟨_, _, hc⟩ := List.mem_map.1 hc
      cases hc
    · intro r b _ hc
      obtain ⟨_, _, hc⟩ := List.mem_map.1 hc
      cases hc
    · exact Nat.le_of_eq h2.nextReq.symm
    · intro x hx; left; rw [show s.newQ = s0.newQ from rfl, ← h2.newQ]; exact hx
    · intro x hx
      have hx' : x ∈ s0.tries := by rw [← h2.tries]; exact hx
      rcases List.mem_append.1 hx' with hx' | hx'
      · exact Or.inl hx'
      · right
        obtain ⟨id, _, hid⟩ := List.mem_flatMap.1 hx'
        exact (h.kids hid).mono hm
    · intro x hx; left; rw [show s.retries = s0.retries from rfl, ← h2.retries]; exact hx
    · intro x hx; left; rw [show s.apps = s0.apps from rfl, ← h2.apps]; exact hx
    · intro id x hx
      left
      have hx' : ((heights s.lib lib).foldl evictHeight s0).byId.get id = some x := hx
      rw [h3] at hx'
      cases hk : s0.byId.get id with
      | none => rw [hk] at hx'; cases hx'
      | some y =>
        rw [hk] at hx'
        simp only [Option.bind_some] at hx'
        split at hx'
        · cases hx'
        · cases hx'
          exact ⟨_, rfl, rfl, fun r hr => Or.inl hr⟩
  | broadcast id height =>
    obtain ⟨_, rfl⟩ := step_broadcast hst
    rw [handleBroadcast_eq]
    refine h.extend [] rfl (by simp) (by simp) (by simp) (Nat.le_refl _)
        (fun x hx => Or.inl hx) ?_ (fun x hx => Or.inl hx) (fun x hx => Or.inl hx) (same rfl)
    intro x hx
    rcases List.mem_append.1 hx with hx | hx
    · exact Or.inl hx
    · exact Or.inr (h.kids hx)
  | tryBlock i =>
    obtain ⟨_, b, f, ht, rfl⟩ := step_tryBlock hst
    have hb : Known s.log b := h.tries _ (mem_of_getElem? ht)
    have htr : ∀ x ∈ s.tries.eraseIdx i, x ∈ s.tries := fun x hx => List.mem_of_mem_eraseIdx hx
    unfold handleTry
    split
    · split
      · refine h.extend [] rfl (by simp) (by simp) (by simp) (Nat.le_refl _)
          (fun x hx => Or.inl hx) (fun x hx => Or.inl (htr x hx)) ?_ (fun x hx => Or.inl hx) (same rfl)
        intro x hx
        rcases List.mem_append.1 hx with hx | hx
        · exact Or.inl hx
        · simp at hx; subst hx; exact Or.inr hb
      · exact h.extend [] rfl (by simp) (by simp) (by simp) (Nat.le_refl _)
          (fun x hx => Or.inl hx) (fun x hx => Or.inl (htr x hx)) (fun x hx => Or.inl hx) (fun x hx => Or.inl hx) (same rfl)
    · have hm : ∀ x ∈ s.log, x ∈ Obs.start b :: s.log := fun x hx => List.mem_cons_of_mem _ hx
      refine h.extend [.start b] rfl ?_ (by simp) (by simp) (Nat.le_refl _)
          (fun x hx => Or.inl hx) (fun x hx => Or.inl (htr x hx)) (fun x hx => Or.inl hx) ?_ (same rfl)
      · intro x hx; simp at hx; subst hx; exact hb.mono hm
      · intro a ha
        rcases List.mem_append.1 ha with ha | ha
        · exact Or.inl ha
        · right
          simp only [List.mem_singleton] at ha
          subst ha
          unfold beginApp
          simp only
          split <;> exact ⟨hb.mono hm, by simp, by simp⟩
  | status i =>
    obtain ⟨_, b, e, ha, rfl⟩ := step_status hst
    have hma : ⟨b, .done e⟩ ∈ s.apps := mem_of_getElem? ha
    have hap : ∀ x ∈ s.apps.eraseIdx i, x ∈ s.apps := fun x hx => List.mem_of_mem_eraseIdx hx
    set s0 : AState := { s with apps := s.apps.eraseIdx i } with hs0
    have hkb := h.apps _ hma
    rcases handleStatus_cases o s0 b e with ⟨_, hs⟩ | ⟨_, _, hs⟩ | ⟨_, _, hs⟩
    · rw [hs]
      refine h.extend [.status b e] rfl ?_ (by simp) (by simp) (Nat.le_refl _)
          (fun x hx => Or.inl hx) ?_ (fun x hx => Or.inl hx) (fun x hx => Or.inl (hap x hx)) (same rfl)
      · intro x hx; simp at hx; subst hx; exact hkb.mono fun x hx => List.mem_cons_of_mem _ hx
      · intro x hx
        rcases List.mem_append.1 hx with hx | hx
        · exact Or.inl hx
        · simp at hx; subst hx; right; exact hkb.mono fun x hx => List.mem_cons_of_mem _ hx
    · rw [hs]
      refine h.extend [.status b e] rfl ?_ (by simp) (by simp) (Nat.le_refl _)
          (fun x hx => Or.inl hx) (fun x hx => Or.inl hx) (fun x hx => Or.inl hx) (fun x hx => Or.inl (hap x hx)) (same rfl)
      intro x hx; simp at hx; subst hx; exact hkb.mono fun x hx => List.mem_cons_of_mem _ hx
    · rw [hs]
      set s1 : AState := { afterStatus s0 b e with tries := s0.tries ++ wakes o s0 b e } with hs1
      have hr := onlyRemoved_remove s1 b.id e
      have hl := log_remove s1 b.id e
      have hg := get_remove s1 b.id e
      have hm : ∀ x ∈ s.log, x ∈ (removeBlockEntry s1 b.id e).log := fun x hx => by
        rw [hl]; exact List.mem_append_right _ (List.mem_cons_of_mem _ hx)
      refine h.extend ((match s1.byId.get b.id with | none => [] | some x => x.chans.reverse).map
        (fun r => Obs.answer r e) ++ [.status b e]) (by rw [hl, List.append_assoc]; rfl) ?_ ?_ ?_ ?_ ?_ ?_ ?_ ?_ ?_
      · intro x hx
        rcases List.mem_append.1 hx with hx | hx
        · obtain ⟨r, hr', rfl⟩ := List.mem_map.1 hx
          cases hg' : s1.byId.get b.id with
          | none => rw [hg'] at hr'; cases hr'
          | some y =>
            rw [hg'] at hr'
            obtain ⟨c, hc1, hc2⟩ := h.chans b.id y r hg' (List.mem_reverse.1 hr')
            exact ⟨c, hm _ hc1, Or.inr (Or.inr (Or.inr ⟨b, hc2.symm, hkb.mono hm, (h.done b e hma).mono hm⟩))⟩
        · simp at hx; subst hx; exact hkb.mono hm
      · intro r c hc
        rcases List.mem_append.1 hc with hc | hc
        · obtain ⟨_, _, hc⟩ := List.mem_map.1 hc; cases hc
        · simp at hc
      · intro r c _ hc
        rcases List.mem_append.1 hc with hc | hc
        · obtain ⟨_, _, hc⟩ := List.mem_map.1 hc; cases hc
        · simp at hc
      · exact Nat.le_of_eq hr.nextReq.symm
      · intro x hx; left; rw [hr.newQ] at hx; exact hx
      · intro x hx
        rw [hr.tries] at hx
        rcases List.mem_append.1 hx with hx | hx
        · exact Or.inl hx
        · right
          unfold wakes at hx
          split at hx
          · obtain ⟨k, y, hy, rfl⟩ := kids_waiting hx
            exact (h.entries k y hy).mono hm
          · cases hx
      · intro x hx; left; rw [hr.retries] at hx; exact hx
      · intro x hx; left; rw [hr.apps] at hx; exact hap x hx
      · intro id x hx
        rw [hg] at hx
        split at hx
        · cases hx
        · exact Or.inl ⟨x, hx, rfl, fun r hr => Or.inl hr⟩
  | delayDone i =>
    obtain ⟨b, t, t', ha, _, rfl⟩ := step_delayDone hst
    exact h.setApp ha [] rfl (by simp) (by simp) rfl rfl rfl rfl rfl rfl ⟨by simp, by simp⟩
  | delayTimeout i =>
    obtain ⟨b, t, t', ha, _, rfl⟩ := step_delayTimeout hst
    refine h.setApp ha [.delayTimeout b] rfl ?_ (by simp) rfl rfl rfl rfl rfl rfl ⟨by simp, ?_⟩
    · intro x hx; simp at hx; subst hx
      exact (h.apps _ (mem_of_getElem? ha)).mono fun x hx => List.mem_cons_of_mem _ hx
    · intro e he
      cases he
      exact Or.inr (Or.inl ⟨rfl, by simp⟩)
  | work i =>
    obtain ⟨b, ha, ⟨_, rfl⟩ | ⟨_, rfl⟩⟩ := step_work hst
    · refine h.setApp ha [] rfl (by simp) (by simp) rfl rfl rfl rfl rfl rfl ⟨by simp, ?_⟩
      intro e he
      cases he
      exact Or.inr (Or.inr rfl)
    · refine h.setApp ha [.submit b] rfl ?_ (by simp) rfl rfl rfl rfl rfl rfl ⟨by simp, by simp⟩
      intro x hx; simp at hx; subst hx
      exact (h.apps _ (mem_of_getElem? ha)).mono fun x hx => List.mem_cons_of_mem _ hx
  | rpcReturn i e =>
    obtain ⟨b, ha, rfl⟩ := step_rpcReturn hst
    refine h.setApp ha [.verdict b e] rfl ?_ (by simp) rfl rfl rfl rfl rfl rfl ⟨by simp, ?_⟩
    · intro x hx; simp at hx; subst hx
      exact List.mem_cons_of_mem _ (h.rpc b (mem_of_getElem? ha))
    · intro e' he
      cases he
      exact Or.inl (by simp)
  | retryDue i =>
    obtain ⟨t, b, hr, _, rfl⟩ := step_retryDue hst
    refine h.extend [] rfl (by simp) (by simp) (by simp) (Nat.le_refl _)
        (fun x hx => Or.inl hx) ?_ (fun x hx => Or.inl (List.mem_of_mem_eraseIdx hx)) (fun x hx => Or.inl hx) (same rfl)
    intro x hx
    rcases List.mem_append.1 hx with hx | hx
    · exact Or.inl hx
    · simp at hx; subst hx; exact Or.inr (h.retries _ (mem_of_getElem? hr))
  | tick d =>
    rw [step_tick hst]
    exact h.extend [] rfl (by simp) (by simp) (by simp) (Nat.le_refl _)
        (fun x hx => Or.inl hx) (fun x hx => Or.inl hx) (fun x hx => Or.inl hx) (fun x hx => Or.inl hx) (same rfl)

theorem prov_reachable {o : AppOpts} {s : AState} (h : Reachable o s) : Prov s := by
  have : Inv o s ∧ Prov s := by
    refine reachable_induction (P := fun s => Inv o s ∧ Prov s)
      (fun hi lib now => ⟨inv_init o hi lib now, prov_init hi lib now⟩) ?_ h
    intro s l s' hp hst
    exact ⟨inv_step o s l s' hp.1 hst, prov_step o s l s' hp.1 hp.2 hst⟩
  exact this.2

end App
end KP2P

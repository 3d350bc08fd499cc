import Verif.Model.Session
import Mathlib.Data.List.Perm.Basic
/-!
# Invariants of a session
-/

namespace KP2P.Session
open PeerConn

theorem run_cons (o : Opts) (s : State) (l : Label) (ls : List Label) :
    run o s (l :: ls) = (step o s l).bind fun s' => run o s' ls := by
  show (match step o s l with | some s' => run o s' ls | none => none) = _
  cases step o s l <;> rfl

theorem run_ind {o : Opts} {P : State → Prop} (hstep : ∀ s l s', P s → step o s l = some s' → P s')
    (ls : List Label) (s s' : State) (h : P s) (hr : run o s ls = some s') : P s' := by
  induction ls generalizing s with
  | nil => cases hr; exact h
  | cons l ls ih =>
    rw [run_cons] at hr
    cases hs : step o s l with
    | none => rw [hs] at hr; cases hr
    | some s1 => rw [hs] at hr; exact ih s1 (hstep s l s1 h hs) hr

theorem reachable_getD (o : Opts) (ls : List Label) (d : State) (h : (run o init ls).isSome = true) :
    Reachable o ((run o init ls).getD d) := by
  refine ⟨ls, ?_⟩
  cases hh : run o init ls with
  | none => rw [hh] at h; cases h
  | some s => rfl

/-- What one step does. -/
inductive Eff (o : Opts) (s : State) : State → Prop
  | hsOk (e : HsEnv) (v : Option Version) (hp : s.phase = .handshake) (hr : (PeerConn.handshake o e).err = none) :
      Eff o s { s with phase := .sync, version := v, log := .handshake (PeerConn.handshake o e).calls none :: s.log }
  | hsFail (e : HsEnv) (v : Option Version) (err : Err) (hp : s.phase = .handshake)
      (hr : (PeerConn.handshake o e).err = some err) :
      Eff o s { s with
        phase := .retryWait, version := v, reporters := s.reporters ++ [err],
        log := .handshake (PeerConn.handshake o e).calls (some err) :: s.log }
  | retry (hp : s.phase = .retryWait) : Eff o s { s with phase := .handshake }
  | roundOk (e : SyncEnv) (hp : s.phase = .sync) (hr : (requestSyncBlocks o e s.synced).out = .ok) :
      Eff o s { s with
        phase := .sleeping (requestSyncBlocks o e s.synced).synced, synced := (requestSyncBlocks o e s.synced).synced,
        log := .round (requestSyncBlocks o e s.synced).calls .ok :: s.log }
  | roundErr (e : SyncEnv) (err : Err) (hp : s.phase = .sync) (hr : (requestSyncBlocks o e s.synced).out = .err err) :
      Eff o s { s with
        phase := .reporting err, synced := (requestSyncBlocks o e s.synced).synced,
        log := .round (requestSyncBlocks o e s.synced).calls (.err err) :: s.log }
  | roundPanic (e : SyncEnv) (hp : s.phase = .sync) (hr : (requestSyncBlocks o e s.synced).out = .panic) :
      Eff o s { s with
        phase := .crashed, synced := (requestSyncBlocks o e s.synced).synced,
        log := .round (requestSyncBlocks o e s.synced).calls .panic :: s.log }
  | report (e : Err) (hp : s.phase = .reporting e) :
      Eff o s { s with phase := .sleeping s.synced, log := .report e :: s.log }
  | wake (b : Bool) (hp : s.phase = .sleeping b) : Eff o s { s with phase := .sync }
  | endQuiet (hc : s.cancelled = true) (hp : s.phase = .retryWait ∨ ∃ b, s.phase = .sleeping b) :
      Eff o s { s with phase := .ended }
  | endDrop (hc : s.cancelled = true) (e : Err) (hp : s.phase = .reporting e) :
      Eff o s { s with phase := .ended, log := .drop e :: s.log }
  | deliver (i : Nat) (e : Err) (hi : s.reporters[i]? = some e) :
      Eff o s { s with reporters := s.reporters.eraseIdx i, log := .report e :: s.log }
  | giveUp (hc : s.cancelled = true) (i : Nat) (e : Err) (hi : s.reporters[i]? = some e) :
      Eff o s { s with reporters := s.reporters.eraseIdx i, log := .drop e :: s.log }
  | cancel : Eff o s { s with cancelled := true, log := .cancel :: s.log }

theorem step_eff {o : Opts} {s s' : State} {l : Label} (h : step o s l = some s') : Eff o s s' := by
  cases l with
  | handshake e =>
    simp only [step] at h
    split at h
    · rename_i hp
      split at h
      · rename_i hr; cases h; exact .hsOk e _ hp hr
      · rename_i err hr; cases h; exact .hsFail e _ err hp hr
    · cases h
  | retryTimer =>
    simp only [step] at h
    split at h
    · rename_i hp; cases h; exact .retry hp
    · cases h
  | round e =>
    simp only [step] at h
    split at h
    · rename_i hp
      split at h
      · rename_i hr; cases h; rw [hr]; exact .roundOk e hp hr
      · rename_i err hr; cases h; rw [hr]; exact .roundErr e err hp hr
      · rename_i hr; cases h; rw [hr]; exact .roundPanic e hp hr
    · cases h
  | report =>
    simp only [step] at h
    split at h
    · rename_i e hp; cases h; exact .report e hp
    · cases h
  | sleepTimer =>
    simp only [step] at h
    split at h
    · rename_i b hp; cases h; exact .wake b hp
    · cases h
  | seeDone =>
    simp only [step] at h
    split at h
    · rename_i hc
      split at h
      · rename_i hp; cases h; exact .endQuiet hc (Or.inl hp)
      · rename_i b hp; cases h; exact .endQuiet hc (Or.inr ⟨b, hp⟩)
      · rename_i e hp; cases h; exact .endDrop hc e hp
      · cases h
    · cases h
  | deliver i =>
    simp only [step] at h
    split at h
    · rename_i e hi; cases h; exact .deliver i e hi
    · cases h
  | giveUp i =>
    simp only [step] at h
    split at h
    · rename_i hc
      split at h
      · rename_i e hi; cases h; exact .giveUp hc i e hi
      · cases h
    · cases h
  | cancel => cases h; exact .cancel

end KP2P.Session

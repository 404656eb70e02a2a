import Verif.XTask.DoProps
/-!
# `Do` returns under every schedule (C77)
-/
namespace Verif.XTask
open Verif.Go

variable {E V : Type}

/-! ## Specification -/

/-- A step of `Do` or of the goroutine it has started: the context does not change and it is not `do` that ends. -/
def DoOwn (hasDefer : Bool) (m m' : DoSt E V) : Prop := DoStep hasDefer m m' ∧ m'.ctx = m.ctx ∧ (m.gor = .running → m'.gor = .running)

/-! ## Termination -/

/-- Proof only: part of a measure; models no code. -/
def Caller.weight : Caller E V → Nat
  | .entry => 7
  | .spawn => 6
  | .wait => 2
  | .leave _ => 1
  | .left _ => 0

/-- Proof only: part of a measure; models no code. -/
def Gor.weight : Gor E V → Nat
  | .none => 0
  | .running => 2
  | .finished _ => 1
  | .ended _ => 0

/-- A bound on the number of steps left. -/
def DoSt.weight (m : DoSt E V) : Nat := m.caller.weight + m.gor.weight + (if m.ctx.isSome then 0 else 1)

theorem weight_lt {hasDefer : Bool} {m m' : DoSt E V} (h : DoStep hasDefer m m') : m'.weight < m.weight := by
  cases h <;> simp_all [DoSt.weight, Caller.weight, Gor.weight] <;> omega

/-- **C77.** Every execution of `Do` ends, whatever the schedule: here all steps count, those of the context and the end of `do` included. -/
theorem C77_ends (hasDefer : Bool) (m : DoSt E V) : Acc (fun m' m => DoStep hasDefer m m') m := by
  have : ∀ n, ∀ m : DoSt E V, m.weight < n → Acc (fun m' m => DoStep hasDefer m m') m := by
    intro n
    induction n with
    | zero => intro m h; omega
    | succ n ih => exact fun m h => ⟨_, fun m' hs => ih m' (by have := weight_lt hs; omega)⟩
  exact this _ m (Nat.lt_succ_self _)

/-- **C77**, exactly. When `Do` and its goroutine can do nothing by themselves, then `Do` has returned or panicked – or it waits for `do`,
which still runs or has ended with `runtime.Goexit`, and the context is not done. The goroutine has then ended unless `do` runs. -/
theorem C77_exact {hasDefer : Bool} {ctx0 : Option E} {m : DoSt E V} (h : DoReach hasDefer ctx0 m) (hs : ∀ m', ¬ DoOwn hasDefer m m') :
    ((∃ o, m.caller = .left o) ∨ (m.caller = .wait ∧ m.ctx = none ∧ (m.gor = .running ∨ m.gor = .ended .exited))) ∧ ∀ o, m.gor ≠ .finished o := by
  have hi := do_inv h
  have hfin : ∀ o, m.gor ≠ .finished o := fun o hg => by
    obtain ⟨b1, b2⟩ := hi.pending o (Or.inr hg)
    cases o with
    | returned e =>
      exact hs _ ⟨.deliverRet m e { m.doneChan with buf := [e] } hg (by simp [Chan.send, hi.capD.1, hi.capD.2, b1]), rfl, fun h' => by simp [hg] at h'⟩
    | panicked p =>
      exact hs _ ⟨.deliverPanic m p { m.panicChan with buf := [p] } hg (by simp [Chan.send, hi.capP.1, hi.capP.2, b2]), rfl, fun h' => by simp [hg] at h'⟩
    | exited => exact hs _ ⟨.deliverNone m hg, rfl, fun h' => by simp [hg] at h'⟩
  refine ⟨?_, hfin⟩
  cases hc : m.caller with
  | left o => exact .inl ⟨o, rfl⟩
  | leave o => exact absurd ⟨.leave m o hc, rfl, id⟩ (hs _)
  | spawn => exact absurd ⟨.spawn m hc, rfl, fun _ => rfl⟩ (hs _)
  | entry =>
    cases hx : m.ctx with
    | none => exact absurd ⟨.entryGo m hc hx, rfl, id⟩ (hs _)
    | some e => exact absurd ⟨.entryDone m e hc hx, rfl, id⟩ (hs _)
  | wait =>
    right
    cases hx : m.ctx with
    | some e => exact absurd ⟨.recvCtx m e hc hx, rfl, id⟩ (hs _)
    | none =>
      refine ⟨rfl, rfl, ?_⟩
      cases hg : m.gor with
      | none => exact absurd hg (hi.wait hc)
      | running => exact .inl rfl
      | finished o => exact absurd hg (hfin o)
      | ended o =>
        cases o with
        | returned e => exact absurd ⟨.recvDone m e { m.doneChan with buf := [] } hc (by simp [Chan.recv, (hi.keep _ hc hg).1 e rfl]), rfl, id⟩ (hs _)
        | panicked p => exact absurd ⟨.recvPanic m p { m.panicChan with buf := [] } hc (by simp [Chan.recv, (hi.keep _ hc hg).2 p rfl]), rfl, id⟩ (hs _)
        | exited => exact .inr rfl

/-- `do` runs and the context is not done: `Do` waits. -/
example : ∃ m : DoSt Nat Nat, DoReach true none m ∧ (∀ m', ¬ DoOwn true m m') ∧ m.caller = .wait ∧ m.gor = .running := by
  refine ⟨⟨none, Chan.make 1, Chan.make 1, .wait, .running, 0, true⟩, .step (.step .init (.entryGo _ rfl rfl)) (.spawn _ rfl), ?_, rfl, rfl⟩
  rintro m' ⟨h, h1, h2⟩
  cases h <;> simp_all [Chan.recv, Chan.make]

end Verif.XTask

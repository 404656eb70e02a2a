import Verif.Conc.Prog
/-!
# Model of `xsync/spinlock.go`

A process is one session of a goroutine with the lock: acquire it with `Lock` or `TryLock`, execute a critical
section, `Unlock`. So `Unlock` is called only by a holder, as the property demands.
-/
namespace Verif.XSync.Spinlock
open Verif.Conc

/-- The methods: spinlock.go:32 `Lock`, 46 `TryLock`, 51 `Unlock`. -/
inductive Op where
  /-- `Lock(); …; Unlock()` -/
  | lock
  /-- `if TryLock() { …; Unlock() }` -/
  | tryLock
  deriving DecidableEq

/-- Results of the methods. -/
inductive Res where
  | released
  /-- `TryLock` returned false -/
  | refused
  deriving DecidableEq

/-- Local points. `n` counts the `Gosched` calls since the previous attempt, `a` the failed attempts of the session (history variables). -/
inductive Pt where
  /-- spinlock.go:34 `for !lock.TryLock()` with the current `backoff` -/
  | spin (backoff n a : Nat)
  /-- spinlock.go:36-38 the inner loop: `k` calls of `runtime.Gosched` left -/
  | yield (backoff k n a : Nat)
  /-- spinlock.go:46-48 a single `TryLock` -/
  | try_
  /-- the critical section; the next step is spinlock.go:51-53 `Unlock` -/
  | critical
  deriving DecidableEq

/-- spinlock.go:24 -/
def maxBackoff : Nat := 16

/-- spinlock.go:46-48 `TryLock`: compare-and-swap of the word from 0 to 1. `g` is the lock word. -/
def cas (g : Bool) : Bool × Bool := if g then (true, false) else (true, true)

/-- spinlock.go:32-43 `Lock`, 46-48 `TryLock`, 51-53 `Unlock`. -/
def step (g : Bool) (_ : Nat) (_ : Op) (s : Pt) (_ : Nat) : Option (Bool × (Pt ⊕ Res)) :=
  match s with
  | .spin b _ a => some ((cas g).1, .inl (if (cas g).2 then .critical else .yield b b 0 (a + 1)))
  | .yield b 0 n a => some (g, .inl (.spin (if b < maxBackoff then b <<< 1 else b) n a))
  | .yield b (k + 1) n a => some (g, .inl (.yield b k (n + 1) a))
  | .try_ => some ((cas g).1, if (cas g).2 then .inl .critical else .inr .refused)
  | .critical => some (false, .inr .released)

/-- All interleavings of the users of a `Spinlock`. -/
def prog : Prog Bool Op Res Pt where
  init := false
  begin op := match op with
    | .lock => .spin 1 0 0
    | .tryLock => .try_
  step := step

end Verif.XSync.Spinlock

import Verif.XSync.SpinlockProps
import Verif.Conc.Obs
/-!
# Data guarded by a spinlock

Sessions with the lock of `xsync/spinlock.go` as in `Spinlock.lean`, whose critical sections now are arbitrary programs on a shared memory of plain
variables, executed one access at a time.
-/
namespace Verif.XSync.Spinlock
open Verif.Conc

variable {D R : Type}

/-- What a user does between `Lock` and `Unlock`: reads and writes of plain variables, choices of the environment, and a result. -/
inductive Body (D R : Type) where
  | read (x : Nat) (k : D → Body D R)
  | write (x : Nat) (d : D) (k : Body D R)
  | choose (k : Nat → Body D R)
  | done (r : R)

/-- A session: how the lock is acquired, and the critical section. -/
structure Session (D R : Type) where
  how : Op
  body : Body D R

/-- Results of sessions. -/
inductive Out (R : Type) where
  | released (r : R)
  /-- `TryLock` returned false -/
  | refused

/-- The lock word and the memory. -/
structure Shared (D : Type) where
  word : Bool
  mem : Nat → D

/-- The session executes spinlock.go (`Spinlock.step`) outside its critical section and for the final `Unlock`, and its body inside. -/
def stepS (g : Shared D) (i : Nat) (op : Session D R) (s : Pt × Body D R) (c : Nat) : Option (Shared D × ((Pt × Body D R) ⊕ Out R)) :=
  match s with
  | (.critical, .read x k) => some (g, .inl (.critical, k (g.mem x)))
  | (.critical, .write x d k) => some ({ g with mem := upd g.mem x d }, .inl (.critical, k))
  | (.critical, .choose k) => some (g, .inl (.critical, k c))
  | (.critical, .done r) => (step g.word i op.how .critical c).map fun y => ({ g with word := y.1 }, .inr (.released r))
  | (p, b) => (step g.word i op.how p c).map fun y =>
      ({ g with word := y.1 }, match y.2 with
        | .inl p' => .inl (p', b)
        | .inr _ => .inr .refused)

/-- All sessions with one lock, and memory `mem` in the beginning. -/
def progS (mem : Nat → D) : Prog (Shared D) (Session D R) (Out R) (Pt × Body D R) where
  init := ⟨prog.init, mem⟩
  begin op := (prog.begin op.how, op.body)
  step := stepS

/-! ## Specification -/

/-- The critical section executed without interruption: from memory `m` to memory `m'` with result `r`. -/
inductive Body.Runs : Body D R → (Nat → D) → (Nat → D) → R → Prop where
  | done (r : R) (m : Nat → D) : Runs (.done r) m m r
  | read {x : Nat} {k : D → Body D R} {m m' : Nat → D} {r : R} : Runs (k (m x)) m m' r → Runs (.read x k) m m' r
  | write {x : Nat} {d : D} {k : Body D R} {m m' : Nat → D} {r : R} : Runs k (upd m x d) m' r → Runs (.write x d k) m m' r
  | choose {k : Nat → Body D R} {m m' : Nat → D} {r : R} (c : Nat) : Runs (k c) m m' r → Runs (.choose k) m m' r

/-- A session is one atomic operation: its whole critical section, or, for `TryLock` only, nothing. -/
def sectionSpec (mem : Nat → D) : Spec (Nat → D) (Session D R) (Out R) where
  init := mem
  step m op r m' := match r with
    | .released x => op.body.Runs m m' x
    | .refused => op.how = .tryLock ∧ m' = m

/-- Session `i` is about to access the variable `x`; `w` tells whether to write it. -/
def AccessesVar (m : Conf (Shared D) (Session D R) (Out R) (Pt × Body D R)) (i x : Nat) (w : Bool) : Prop :=
  (∃ op k, w = false ∧ m.pc i = .at op (.critical, .read x k)) ∨ ∃ op d k, w = true ∧ m.pc i = .at op (.critical, .write x d k)

end Verif.XSync.Spinlock

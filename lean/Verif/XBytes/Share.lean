import Verif.XBytes.Props
import Verif.Conc.Lin
/-!
# Goroutines that share the pools of `xbytes/pool.go`

Any number of goroutines run programs that take buffers from the pools, read and write single bytes of them, reslice
them and give them back, in every interleaving. A program refers to its buffers by handles (its local variables); a
handle is gone when the buffer is freed, so that no program uses a buffer after it has freed it: this is the discipline of
C34 (`C34_double_free_aliases` shows that it is needed). Memory: `mem a i` is byte `i` of array `a`.
-/
namespace Verif.XBytes
open Verif.Go Verif.Conc

/-- A program of a goroutine: what it does next and how it goes on. -/
inductive Code (α : Type) where
  /-- it has finished with `a` -/
  | ret (a : α)
  /-- it has panicked, or has used a handle that it does not have -/
  | bad
  /-- `h := make([]byte, len, cap)` -/
  | make (len cap : Nat) (k : Nat → Code α)
  /-- `h := xbytes.Malloc(size, capacity)` -/
  | malloc (size capacity : Int) (k : Nat → Code α)
  /-- `xbytes.Free(h)` -/
  | free (h : Nat) (k : Code α)
  /-- `h = h[lo:hi]` -/
  | reslice (h lo hi : Nat) (k : Code α)
  /-- `h[i]` -/
  | load (h i : Nat) (k : UInt8 → Code α)
  /-- `h[i] = b` -/
  | store (h i : Nat) (b : UInt8) (k : Code α)

/-- One program after the other. -/
def Code.bind {α β : Type} : Code α → (α → Code β) → Code β
  | .ret a, f => f a
  | .bad, _ => .bad
  | .make l c k, f => .make l c fun h => (k h).bind f
  | .malloc s c k, f => .malloc s c fun h => (k h).bind f
  | .free h k, f => .free h (k.bind f)
  | .reslice h lo hi k, f => .reslice h lo hi (k.bind f)
  | .load h i k, f => .load h i fun b => (k b).bind f
  | .store h i b k, f => .store h i b (k.bind f)

/-- A goroutine: the rest of its program, its buffers (by handle) and the next handle. -/
structure Thread (α : Type) where
  code : Code α
  own : Nat → Option Slice
  next : Nat

/-- The memory: byte `i` of array `a`. -/
abbrev Mem := Nat → Nat → UInt8

/-- An assignment `s[i] = b` to an element of an array. -/
def Mem.set (m : Mem) (a i : Nat) (b : UInt8) : Mem := fun a' i' => if a' = a ∧ i' = i then b else m a' i'

variable {α : Type}

/-- One step of a goroutine on the shared memory; `ch` is the choice of the pool. Memory that was never allocated is
zero, so that `make` returns zeroed memory. -/
def tstep (hp : Heap) (m : Mem) (ch : Option Nat) (t : Thread α) : Option (Heap × Mem × Thread α) :=
  match t.code with
  | .ret _ => none
  | .bad => none
  | .make l c k =>
    if l ≤ c then some ({ hp with next := hp.next + 1 }, m, ⟨k t.next, upd t.own t.next (some ⟨⟨hp.next, 0, c⟩, l⟩), t.next + 1⟩)
    else some (hp, m, { t with code := .bad })
  | .malloc size capacity k =>
    match malloc hp ch size capacity with
    | (none, hp') => some (hp', m, { t with code := .bad })
    | (some s, hp') => some (hp', m, ⟨k t.next, upd t.own t.next (some s), t.next + 1⟩)
  | .free h k =>
    match t.own h with
    | none => some (hp, m, { t with code := .bad })
    | some s => some (free hp s, m, ⟨k, upd t.own h none, t.next⟩)
  | .reslice h lo hi k =>
    match t.own h with
    | none => some (hp, m, { t with code := .bad })
    | some s =>
      if lo ≤ hi ∧ hi ≤ s.reg.cap then
        some (hp, m, ⟨k, upd t.own h (some ⟨⟨s.reg.arr, s.reg.off + lo, s.reg.cap - lo⟩, hi - lo⟩), t.next⟩)
      else some (hp, m, { t with code := .bad })
  | .load h i k =>
    match t.own h with
    | none => some (hp, m, { t with code := .bad })
    | some s =>
      if i < s.len then some (hp, m, { t with code := k (m s.reg.arr (s.reg.off + i)) })
      else some (hp, m, { t with code := .bad })
  | .store h i b k =>
    match t.own h with
    | none => some (hp, m, { t with code := .bad })
    | some s =>
      if i < s.len then some (hp, m.set s.reg.arr (s.reg.off + i) b, { t with code := k })
      else some (hp, m, { t with code := .bad })

/-- The whole program: the pools, the memory and all goroutines. -/
structure Sys (α : Type) where
  heap : Heap
  mem : Mem
  th : Nat → Thread α

/-- Steps of the whole program: some goroutine makes a step, or the garbage collector removes a pooled buffer. -/
inductive Sys.Step : Sys α → Sys α → Prop where
  | run (y : Sys α) (i : Nat) (ch : Option Nat) (hp : Heap) (m : Mem) (t : Thread α)
      (h : tstep y.heap y.mem ch (y.th i) = some (hp, m, t)) : Sys.Step y ⟨hp, m, upd y.th i t⟩
  | evict (y : Sys α) (c : Int) (i : Nat) : Sys.Step y ⟨evict y.heap c i, y.mem, y.th⟩

/-- The program in which goroutine `i` runs `cs i`, at its start. -/
def Sys.start (cs : Nat → Code α) : Sys α := ⟨init, fun _ _ => 0, fun i => ⟨cs i, fun _ => none, 0⟩⟩

/-- The states the program can be in. -/
inductive Sys.Reach (cs : Nat → Code α) : Sys α → Prop where
  | start : Sys.Reach cs (.start cs)
  | step {y y' : Sys α} : Sys.Reach cs y → Sys.Step y y' → Sys.Reach cs y'

end Verif.XBytes

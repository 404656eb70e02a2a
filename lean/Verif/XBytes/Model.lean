import Verif.Go.Base
/-!
# Model of `xbytes/pool.go`

Memory: every allocation has an array id; a slice is a window (`off`, `cap`) into an array, plus a length.
`sync.Pool`: a bag of objects; `Get` returns any of them (the choice is a parameter) or calls `New`; objects may be
dropped at any time. `getOrCreatePool(c)` (pool.go:50-62) always gives the pool for the key `c`; it is modelled by a
table from keys to bags (singleflight and `xsync.Map` only decide when an empty pool is made).
Allocation of a non-negative capacity is assumed to succeed (memory suffices).
-/
namespace Verif.XBytes
open Verif.Go

/-- A window of `cap` bytes starting at `off` in array `arr`. -/
structure Region where
  arr : Nat
  off : Nat
  cap : Nat
  deriving DecidableEq, Repr

/-- A Go slice. -/
structure Slice where
  reg : Region
  len : Nat
  deriving DecidableEq, Repr

/-- The state behind pool.go:26-29: the pools of `bytesPoolMap`, by capacity, and the memory. -/
structure Heap where
  /-- array ids below `next` are allocated -/
  next : Nat
  /-- the contents of the pool with key `c` (`*[]byte` of length 0: only the window matters) -/
  pools : Int → List Region

/-- Replace the contents of pool `c`. -/
def Heap.setPool (h : Heap) (c : Int) (l : List Region) : Heap :=
  { h with pools := fun c' => if c' = c then l else h.pools c' }

/-- pool.go:53-56: `make([]byte, 0, c)`; panics (`none`) on negative `c`. -/
def make (h : Heap) (c : Int) : Option Region × Heap :=
  if c < 0 then (none, h) else (some ⟨h.next, 0, c.toNat⟩, { h with next := h.next + 1 })

/-- `pool.Get()` of the pool for `c`: with `choice = i` the `i`-th pooled object, otherwise (or if there is none) `New`. -/
def poolGet (h : Heap) (c : Int) (choice : Option Nat) : Option Region × Heap :=
  match choice with
  | none => make h c
  | some i =>
    match (h.pools c)[i]? with
    | none => make h c
    | some r => (some r, h.setPool c ((h.pools c).eraseIdx i))

/-- pool.go:32-43 `Malloc`; the result `none` is a panic. -/
def malloc (h : Heap) (choice : Option Nat) (size capacity : Int) : Option Slice × Heap :=
  let c := if capacity > size then capacity else size
  match poolGet h c choice with
  | (none, h') => (none, h')
  | (some r, h') => if 0 ≤ size ∧ size ≤ r.cap then (some ⟨r, size.toNat⟩, h') else (none, h')

/-- pool.go:46-48 `MallocSize` -/
def mallocSize (h : Heap) (choice : Option Nat) (size : Int) : Option Slice × Heap := malloc h choice size size

/-- pool.go:65-70 `Free` -/
def free (h : Heap) (s : Slice) : Heap := h.setPool s.reg.cap (h.pools s.reg.cap ++ [s.reg])

/-- The garbage collector empties (parts of) pools. -/
def evict (h : Heap) (c : Int) (i : Nat) : Heap := h.setPool c ((h.pools c).eraseIdx i)

/-- The state at program start. -/
def init : Heap := ⟨0, fun _ => []⟩

end Verif.XBytes

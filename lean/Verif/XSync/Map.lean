import Verif.Go.GoMap
/-!
# Sequential model of `xsync/map.go`

One goroutine. Entries are numbers; `p` gives the pointer of every entry. A Go panic is `none`. With one goroutine a
compare-and-swap that expects the pointer just loaded succeeds, so that every retry loop ends in its first round; the model of
concurrent executions, with the retry loops, is in `MapConc.lean`. The functions given by the user are pure and do not use the map;
the arguments of their calls are recorded.
-/
namespace Verif.XSync.Map
open Verif.Go

variable {K V : Type} [DecidableEq K]

/-- map.go:69-90 the pointer of an entry: nil, `expunged` (map.go:25) or a pointer to a value -/
inductive Ptr (V : Type) where
  | nil
  | expunged
  | val (v : V)
  deriving DecidableEq

/-- The value that a pointer of an entry (map.go:89) stands for. -/
def Ptr.get? : Ptr V → Option V
  | .val v => some v
  | _ => none

/-- map.go:29-67 `Map`, `readOnly` and the entries on the heap -/
structure State (K V : Type) where
  /-- `read.m` -/
  read : GMap K Nat
  /-- `read.amended` -/
  amended : Bool
  /-- `none` is the nil map -/
  dirty : Option (GMap K Nat)
  misses : Nat
  /-- the heap of entries -/
  p : Nat → Ptr V
  /-- the next unused entry -/
  next : Nat

/-- The zero `Map`; a `read` that was never stored loads as the zero `readOnly`. -/
def State.zero : State K V := ⟨[], false, none, 0, fun _ => .nil, 0⟩

/-- An atomic store to `e.p`. -/
def State.setP (s : State K V) (e : Nat) (x : Ptr V) : State K V := { s with p := fun e' => if e' = e then x else s.p e' }

/-- map.go:482-490 `missLocked` -/
def missLocked (s : State K V) : State K V :=
  if s.misses + 1 < (s.dirty.getD []).length then { s with misses := s.misses + 1 }
  else { s with read := s.dirty.getD [], amended := false, dirty := none, misses := 0 }

/-- map.go:506-515 `tryExpungeLocked` -/
def tryExpungeLocked (s : State K V) (e : Nat) : State K V × Bool :=
  match s.p e with
  | .nil => (s.setP e .expunged, true)
  | .expunged => (s, true)
  | .val _ => (s, false)

/-- The loop of map.go:499-503, over the entries in iteration order. -/
def dirtyLoop (s : State K V) (d : GMap K Nat) : List (K × Nat) → State K V × GMap K Nat
  | [] => (s, d)
  | (k, e) :: l =>
    let (s, b) := tryExpungeLocked s e
    dirtyLoop s (if b then d else d.set k e) l

/-- map.go:492-504 `dirtyLocked`; the iteration order does not matter here and is that of the list. -/
def dirtyLocked (s : State K V) : State K V :=
  match s.dirty with
  | some _ => s
  | none => let (s', d) := dirtyLoop s [] s.read; { s' with dirty := some d }

/-- map.go:93-95 `newEntry` and an assignment `m.dirty[key] = newEntry(value)`; panics if `dirty` is nil -/
def addNew (s : State K V) (k : K) (v : V) : Option (State K V) :=
  match s.dirty with
  | none => none
  | some d => some { s with p := fun e' => if e' = s.next then .val v else s.p e', dirty := some (d.set k s.next), next := s.next + 1 }

/-- `m.dirty[key] = e`; panics if `dirty` is nil -/
def setDirty (s : State K V) (k : K) (e : Nat) : Option (State K V) :=
  match s.dirty with
  | none => none
  | some d => some { s with dirty := some (d.set k e) }

/-- map.go:183-185 `unexpungeLocked` followed by map.go:143-147: enter the entry into `dirty` if it was expunged -/
def unexpunge (s : State K V) (k : K) (e : Nat) : Option (State K V) :=
  match s.p e with
  | .expunged => setDirty (s.setP e .nil) k e
  | _ => some s

/-- map.go:152-157: make `dirty` usable for a new key -/
def amend (s : State K V) : State K V :=
  if s.amended then s else { dirtyLocked s with amended := true }

/-- map.go:100-123 `Load` -/
def load (s : State K V) (k : K) : State K V × Option V :=
  match s.read.get k with
  | some e => (s, (s.p e).get?)
  | none =>
    if s.amended then
      let e := (s.dirty.getD []).get k
      let s := missLocked s
      match e with
      | some e => (s, (s.p e).get?)
      | none => (s, none)
    else (s, none)

/-- map.go:134-161 `Store` -/
def store (s : State K V) (k : K) (v : V) : Option (State K V) :=
  match s.read.get k with
  | some e =>
    -- map.go:167-177 `tryStore`
    if s.p e matches .expunged then do
      let s ← unexpunge s k e
      return s.setP e (.val v)
    else some (s.setP e (.val v))
  | none =>
    match (s.dirty.getD []).get k with
    | some e => some (s.setP e (.val v))
    | none => addNew (amend s) k v

/-- map.go:237-262 `tryLoadOrStore`; `none` in the result is `ok == false` -/
def tryLoadOrStore (s : State K V) (e : Nat) (v : V) : State K V × Option (V × Bool) :=
  match s.p e with
  | .expunged => (s, none)
  | .val w => (s, some (w, true))
  | .nil => (s.setP e (.val v), some (v, false))

/-- map.go:197-230 `LoadOrStore` -/
def loadOrStore (s : State K V) (k : K) (v : V) : Option (State K V × Option (V × Bool)) :=
  match s.read.get k with
  | some e =>
    match tryLoadOrStore s e v with
    | (s, some r) => some (s, some r)
    | (s, none) => do
      let s ← unexpunge s k e
      return tryLoadOrStore s e v
  | none =>
    match (s.dirty.getD []).get k with
    | some e => let (s, r) := tryLoadOrStore s e v; some (missLocked s, r)
    | none => do
      let s ← addNew (amend s) k v
      return (s, some (v, false))

/-- map.go:302-328 `tryComputeIfAbsent`; also the keys for which the function was called -/
def tryComputeIfAbsent (s : State K V) (e : Nat) (k : K) (f : K → V) : State K V × Option (V × Bool) × List K :=
  match s.p e with
  | .expunged => (s, none, [])
  | .val w => (s, some (w, true), [])
  | .nil => (s.setP e (.val (f k)), some (f k, false), [k])

/-- map.go:269-300 `ComputeIfAbsent` -/
def computeIfAbsent (s : State K V) (k : K) (f : K → V) : Option (State K V × Option (V × Bool) × List K) :=
  match s.read.get k with
  | some e =>
    match tryComputeIfAbsent s e k f with
    | (s, some r, c) => some (s, some r, c)
    | (s, none, c) => do
      let s ← unexpunge s k e
      let (s, r, c') := tryComputeIfAbsent s e k f
      return (s, r, c ++ c')
  | none =>
    match (s.dirty.getD []).get k with
    | some e => let (s, r, c) := tryComputeIfAbsent s e k f; some (missLocked s, r, c)
    | none => do
      let s ← addNew (amend s) k (f k)
      return (s, some (f k, false), [k])

/-- map.go:359-383 `tryComputeIfPresent`: the outer `none` is `ok == false`; also the arguments of the calls of the function -/
def tryComputeIfPresent (s : State K V) (e : Nat) (k : K) (f : K → V → V) : State K V × Option (Option V) × List (K × V) :=
  match s.p e with
  | .expunged => (s, none, [])
  | .nil => (s, some none, [])
  | .val w => (s.setP e (.val (f k w)), some (some (f k w)), [(k, w)])

/-- map.go:334-357 `ComputeIfPresent`; the result `(actual, exist)` is `none` for `(nil, false)` -/
def computeIfPresent (s : State K V) (k : K) (f : K → V → V) : Option (State K V × Option V × List (K × V)) :=
  match s.read.get k with
  | some e =>
    match tryComputeIfPresent s e k f with
    | (s, some r, c) => some (s, r, c)
    | (s, none, c) => do
      let s ← unexpunge s k e
      let (s, r, c') := tryComputeIfPresent s e k f
      return (s, r.getD none, c ++ c')
  | none =>
    match (s.dirty.getD []).get k with
    | some e => let (s, r, c) := tryComputeIfPresent s e k f; some (missLocked s, r.getD none, c)
    | none => some (s, none, [])

/-- map.go:427-437 `delete` -/
def deleteEntry (s : State K V) (e : Nat) : State K V × Option V :=
  match s.p e with
  | .val w => (s.setP e .nil, some w)
  | _ => (s, none)

/-- map.go:389-410 `LoadAndDelete` -/
def loadAndDelete (s : State K V) (k : K) : State K V × Option V :=
  match s.read.get k with
  | some e => deleteEntry s e
  | none =>
    if s.amended then
      let e := (s.dirty.getD []).get k
      let s := missLocked { s with dirty := s.dirty.map (·.del k) }
      match e with
      | some e => deleteEntry s e
      | none => (s, none)
    else (s, none)

/-- map.go:413-415 `Delete` -/
def delete (s : State K V) (k : K) : State K V := (loadAndDelete s k).1

/-- map.go:418-425 `Clear` -/
def clear (s : State K V) : State K V := { s with read := [], amended := false, dirty := none, misses := 0 }

/-- The loop of map.go:471-479 over the entries in iteration order: the calls of `f` with their arguments. What `f` returns may
depend on the calls made before. -/
def rangeLoop (p : Nat → Ptr V) (f : List (K × V) → K × V → Bool) (calls : List (K × V)) : List (K × Nat) → List (K × V)
  | [] => calls
  | (k, e) :: l =>
    match p e with
    | .val v => if f calls (k, v) then rangeLoop p f (calls ++ [(k, v)]) l else calls ++ [(k, v)]
    | _ => rangeLoop p f calls l

/-- map.go:454-469: the promotion done by `Range` -/
def promote (s : State K V) : State K V :=
  if s.amended then { s with read := s.dirty.getD [], amended := false, dirty := none, misses := 0 } else s

/-- map.go:449-480 `Range`; `order` is the iteration order of `read.m`, a permutation of it. -/
def range (s : State K V) (f : List (K × V) → K × V → Bool) (order : GMap K Nat → List (K × Nat)) : State K V × List (K × V) :=
  let s := promote s
  (s, rangeLoop s.p f [] (order s.read))

end Verif.XSync.Map

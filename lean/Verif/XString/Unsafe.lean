import Verif.XString.Model
/-!
# Memory-level model of `Reverse` and `internal/hack`

`Reverse` converts between strings and byte slices without copying. Here strings and slices are headers (pointer and length) into arrays of
bytes, and every write goes to memory.
-/
namespace Verif.XString
open Verif.Go

/-- The arrays that have been allocated. -/
abbrev Mem := List Bytes

/-- `reflect.StringHeader`: a pointer (array and offset) and a length. -/
structure StrH where
  arr : Nat
  off : Nat
  len : Nat
deriving DecidableEq

/-- `reflect.SliceHeader` -/
structure SliceH where
  arr : Nat
  off : Nat
  len : Nat
  cap : Nat
deriving DecidableEq

/-- The bytes at a pointer. -/
def Mem.bytes (m : Mem) (arr off len : Nat) : Bytes := (((m[arr]?).getD []).drop off).take len

/-- The contents of a string. -/
def Mem.str (m : Mem) (s : StrH) : Bytes := m.bytes s.arr s.off s.len

/-- The header points into an array (the empty string may point anywhere). -/
def StrH.In (s : StrH) (m : Mem) : Prop := s.len ≠ 0 → ∃ a, m[s.arr]? = some a ∧ s.off + s.len ≤ a.length

/-- `internal/hack/xstring.go:29-36` -/
def stringToBytes (s : StrH) : SliceH := ⟨s.arr, s.off, s.len, s.len⟩

/-- `internal/hack/xstring.go:43-45`: reads the first two words of the slice header. -/
def bytesToString (b : SliceH) : StrH := ⟨b.arr, b.off, b.len⟩

/-- `make([]byte, n)` -/
def makeBytes (m : Mem) (n : Nat) : Mem × SliceH := (m ++ [List.replicate n 0], ⟨m.length, 0, n, n⟩)

/-- `b[lo:]`; `none` = panic -/
def SliceH.from (b : SliceH) (lo : Nat) : Option SliceH := if lo ≤ b.len then some ⟨b.arr, b.off + lo, b.len - lo, b.cap - lo⟩ else none

/-- `b[:hi]` -/
def SliceH.upTo (b : SliceH) (hi : Nat) : Option SliceH := if hi ≤ b.cap then some ⟨b.arr, b.off, hi, b.cap⟩ else none

/-- Writes `bs` to the array `a` from `off` on. -/
def writeAt (a : Bytes) (off : Nat) (bs : Bytes) : Bytes := a.take off ++ bs ++ a.drop (off + bs.length)

/-- `utf8.EncodeRune(b, r)`: panics if `b` is too short. -/
def encodeM (m : Mem) (b : SliceH) (r : Int) : Option Mem :=
  if (encodeRune r).length ≤ b.len then some (m.modify b.arr fun a => writeAt a b.off (encodeRune r)) else none

/-- xstring.go:286-296. The loop terminates: `n` is at least 1 for a nonempty slice; `fuel` is an upper bound of the number of rounds. -/
def reverseLoopM (src dst : SliceH) : (fuel : Nat) → (srcIndex dstIndex : Nat) → Mem → Option (Mem × StrH × Bool)
  | 0, srcIndex, _, m => if srcIndex = 0 then some (m, bytesToString dst, false) else none
  | f + 1, srcIndex, dstIndex, m =>
    if srcIndex = 0 then some (m, bytesToString dst, false)
    else
      match src.upTo srcIndex with
      | none => none
      | some part =>
        let (r, n) := decodeLastRune (m.bytes part.arr part.off part.len)
        if r = runeError then some (m, bytesToString dst, true)
        else
          match dst.from dstIndex with
          | none => none
          | some d =>
            match encodeM m d r with
            | none => none
            | some m' => reverseLoopM src dst f (srcIndex - n) (dstIndex + n) m'

/-- xstring.go:277-299 `Reverse` on memory. -/
def reverseM (m : Mem) (s : StrH) : Option (Mem × StrH × Bool) :=
  if s.len = 0 then some (m, s, false)
  else
    let src := stringToBytes s
    let (m', dst) := makeBytes m s.len
    reverseLoopM src dst s.len s.len 0 m'

end Verif.XString

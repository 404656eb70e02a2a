import Verif.Go.Base
/-!
# Go strings and `unicode/utf8`

A Go string is an immutable byte sequence: `List UInt8`. A `rune` is an `int32`, modelled by an `Int`.

These definitions model the Go standard library (packages `unicode/utf8` and `strings`, and the language's
`range` over strings and `[]rune` conversions), which `/repo/xstring/xstring.go` calls. They are part of the
trusted reading of Go, not of `/repo`.
-/
namespace Verif.Go

/-- Go's strings and byte slices. -/
abbrev Bytes := List UInt8

/-- `utf8.RuneError`, U+FFFD. -/
def runeError : Int := 0xFFFD

/-- A Unicode scalar value: a code point that is not a surrogate (`utf8.ValidRune`). -/
def IsScalar (r : Int) : Prop := (0 ≤ r ∧ r < 0xD800) ∨ (0xE000 ≤ r ∧ r ≤ 0x10FFFF)

instance (r : Int) : Decidable (IsScalar r) := by unfold IsScalar; infer_instance

/-- A UTF-8 continuation byte `10xxxxxx`. -/
def IsCont (b : UInt8) : Prop := 0x80 ≤ b.toNat ∧ b.toNat ≤ 0xBF

instance (b : UInt8) : Decidable (IsCont b) := by unfold IsCont; infer_instance

/-- `utf8.RuneStart`: not a continuation byte (`b&0xC0 != 0x80`). -/
def runeStart (b : UInt8) : Bool := !decide (IsCont b)

/-- `utf8.DecodeRune` / `DecodeRuneInString`: the first rune and its width; `(RuneError, 0)` on empty input and
`(RuneError, 1)` on invalid input. The library's `first`/`acceptRanges` tables are written out as comparisons. -/
def decodeRune : Bytes → Int × Nat
  | [] => (runeError, 0)
  | p0 :: t =>
    let b0 := p0.toNat
    if b0 < 0x80 then ((b0 : Int), 1)
    else if b0 < 0xC2 then (runeError, 1)
    else if b0 < 0xE0 then
      match t with
      | p1 :: _ =>
        if IsCont p1 then (((b0 % 32) * 64 + p1.toNat % 64 : Nat), 2) else (runeError, 1)
      | _ => (runeError, 1)
    else if b0 < 0xF0 then
      match t with
      | p1 :: p2 :: _ =>
        let lo := if b0 = 0xE0 then 0xA0 else 0x80
        let hi := if b0 = 0xED then 0x9F else 0xBF
        if lo ≤ p1.toNat ∧ p1.toNat ≤ hi ∧ IsCont p2 then
          (((b0 % 16) * 4096 + (p1.toNat % 64) * 64 + p2.toNat % 64 : Nat), 3)
        else (runeError, 1)
      | _ => (runeError, 1)
    else if b0 < 0xF5 then
      match t with
      | p1 :: p2 :: p3 :: _ =>
        let lo := if b0 = 0xF0 then 0x90 else 0x80
        let hi := if b0 = 0xF4 then 0x8F else 0xBF
        if lo ≤ p1.toNat ∧ p1.toNat ≤ hi ∧ IsCont p2 ∧ IsCont p3 then
          (((b0 % 8) * 262144 + (p1.toNat % 64) * 4096 + (p2.toNat % 64) * 64 + p3.toNat % 64 : Nat), 4)
        else (runeError, 1)
      | _ => (runeError, 1)
    else (runeError, 1)

/-- `utf8.AppendRune` / `utf8.EncodeRune` / `strings.Builder.WriteRune`: anything that is not a scalar value is
written as U+FFFD. -/
def encodeRune (r : Int) : Bytes :=
  let n := if IsScalar r then r.toNat else 0xFFFD
  if n < 0x80 then [UInt8.ofNat n]
  else if n < 0x800 then [UInt8.ofNat (0xC0 + n / 64), UInt8.ofNat (0x80 + n % 64)]
  else if n < 0x10000 then
    [UInt8.ofNat (0xE0 + n / 4096), UInt8.ofNat (0x80 + n / 64 % 64), UInt8.ofNat (0x80 + n % 64)]
  else
    [UInt8.ofNat (0xF0 + n / 262144), UInt8.ofNat (0x80 + n / 4096 % 64), UInt8.ofNat (0x80 + n / 64 % 64),
      UInt8.ofNat (0x80 + n % 64)]

/-- Decoding loop with fuel (each step consumes at least one byte). -/
def runesF : Nat → Bytes → List Int
  | 0, _ => []
  | _, [] => []
  | f + 1, s => (decodeRune s).1 :: runesF f (s.drop (decodeRune s).2)

/-- The runes seen by `for _, v := range s`, `[]rune(s)`; `utf8.RuneCountInString` is its length. -/
def runes (s : Bytes) : List Int := runesF s.length s

/-- `string(runes)` and writing runes one by one to a `strings.Builder`. -/
def encodeAll (rs : List Int) : Bytes := rs.flatMap encodeRune

/-- The backward scan `for start--; start >= lim; start-- { if RuneStart(p[start]) { break } }` of
`utf8.DecodeLastRune`, from position `start` (exclusive upper end), at most `k` positions; returns the position
where it stops, or the lowest position scanned if no start byte is found (then clamped at 0 by the caller:
`start` = `lim - 1`). -/
def scanBack (p : Bytes) (lim : Nat) : (start : Nat) → Nat
  | 0 => 0
  | start + 1 =>
    -- position `start` is examined
    if start < lim then start
    else if runeStart (p.getD start 0) then start
    else scanBack p lim start

/-- `utf8.DecodeLastRune`. -/
def decodeLastRune (p : Bytes) : Int × Nat :=
  let e := p.length
  if e = 0 then (runeError, 0)
  else
    let last := p.getD (e - 1) 0
    if last.toNat < 0x80 then ((last.toNat : Int), 1)
    else
      let lim := e - 4
      let start := scanBack p lim (e - 1)
      let (r, size) := decodeRune (p.drop start)
      if start + size ≠ e then (runeError, 1) else (r, size)

/-- Valid UTF-8, stated without any decoder: the concatenation of encodings of scalar values. -/
def ValidUtf8 (s : Bytes) : Prop := ∃ rs : List Int, (∀ r ∈ rs, IsScalar r) ∧ s = encodeAll rs

end Verif.Go

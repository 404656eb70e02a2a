import Verif.Go.Utf8
import Verif.XMath.Model
/-!
# Model of `xstring/xstring.go`

Function-by-function. Strings are byte lists, `Len(s)` is `(runes s).length`, `for _, v := range s` iterates over
`runes s`. A panic (negative `Grow`, index out of range) is `none`. `strings.Builder` is the list of bytes written.
-/
namespace Verif.XString
open Verif.Go Verif.XMath

/-- The `unicode` tables and case mappings that the code uses. Only one fact about them is assumed: lower-casing a
valid code point gives a valid code point. -/
structure Unicode where
  isLetter : Int → Bool
  isDigit : Int → Bool
  isSpace : Int → Bool
  lower : Int → Int
  upper : Int → Int
  lower_scalar : ∀ r, IsScalar r → IsScalar (lower r)

/-- xstring.go:665-668 `Len` (`utf8.RuneCountInString`) -/
def len (s : Bytes) : Nat := (runes s).length

/-- The loop of xstring.go:141-143 -/
def repeatLoop (ch : Int) : Nat → Bytes
  | 0 => []
  | n + 1 => encodeRune ch ++ repeatLoop ch n

/-- xstring.go:133-146 `RepeatChar` -/
def repeatChar (ch : Int) (rep : Int) : Bytes := if rep ≤ 0 then [] else repeatLoop ch rep.toNat

/-- xstring.go:125-127 `padRawLeftChar` -/
def padRawLeftChar (s : Bytes) (ch : Int) (padSize : Int) : Bytes := repeatChar ch padSize ++ s

/-- xstring.go:129-131 `padRawRightChar` -/
def padRawRightChar (s : Bytes) (ch : Int) (padSize : Int) : Bytes := s ++ repeatChar ch padSize

/-- xstring.go:108-123 `padCharLeftOrRight` -/
def padCharLeftOrRight (s : Bytes) (size : Int) (ch : Int) (isLeft : Bool) : Bytes :=
  if size ≤ 0 then s
  else
    let pads := size - (len s : Int)
    if pads ≤ 0 then s
    else if isLeft then padRawLeftChar s ch pads
    else padRawRightChar s ch pads

/-- xstring.go:48-50 `PadLeftChar` -/
def padLeftChar (s : Bytes) (size : Int) (ch : Int) : Bytes := padCharLeftOrRight s size ch true
/-- xstring.go:55-57 `PadLeftSpace` -/
def padLeftSpace (s : Bytes) (size : Int) : Bytes := padLeftChar s size 32
/-- xstring.go:62-64 `PadRightChar` -/
def padRightChar (s : Bytes) (size : Int) (ch : Int) : Bytes := padCharLeftOrRight s size ch false
/-- xstring.go:69-71 `PadRightSpace` -/
def padRightSpace (s : Bytes) (size : Int) : Bytes := padRightChar s size 32

/-- xstring.go:76-99 `PadCenterChar` -/
def padCenterChar (s : Bytes) (size : Int) (ch : Int) : Bytes :=
  if size ≤ 0 then s
  else
    let length : Int := len s
    let pads := size - length
    if pads ≤ 0 then s
    else
      let leftPads := Int.tdiv pads 2
      let s1 := if leftPads > 0 then padRawLeftChar s ch leftPads else s
      let rightPads := size - leftPads - length
      if rightPads > 0 then padRawRightChar s1 ch rightPads else s1

/-- xstring.go:104-106 `PadCenterSpace` -/
def padCenterSpace (s : Bytes) (size : Int) : Bytes := padCenterChar s size 32

/-- The loop of xstring.go:156-160 -/
def removeCharLoop (rm : Int) : List Int → Bytes
  | [] => []
  | v :: vs => (if v ≠ rm then encodeRune v else []) ++ removeCharLoop rm vs

/-- xstring.go:149-163 `RemoveChar` -/
def removeChar (s : Bytes) (rm : Int) : Bytes := if s = [] then s else removeCharLoop rm (runes s)

/-- Go's `strings.Index` as an option (`none` for -1): position of the first occurrence. -/
def index (sub : Bytes) : Bytes → Option Nat
  | [] => if sub = [] then some 0 else none
  | b :: t => if sub.isPrefixOf (b :: t) then some 0 else (index sub t).map (· + 1)

/-- Go's `strings.ReplaceAll(s, old, "")` for non-empty `old`; each round consumes at least one byte, so the fuel
`len(s)` given by `removeString` is enough. -/
def replaceLoop (old : Bytes) : Nat → Bytes → Bytes
  | 0, s => s
  | f + 1, s =>
    match index old s with
    | none => s
    | some i => s.take i ++ replaceLoop old f (s.drop (i + old.length))

/-- xstring.go:166-172 `RemoveString` -/
def removeString (s rm : Bytes) : Bytes :=
  if s = [] ∨ rm = [] then s else replaceLoop rm s.length s

/-- The loop of xstring.go:252-260 -/
def subLoop : List Int → (runeIndex start stop : Int) → Bytes
  | [], _, _, _ => []
  | v :: vs, i, start, stop =>
    if i ≥ stop then []
    else (if i ≥ start then encodeRune v else []) ++ subLoop vs (i + 1) start stop

/-- xstring.go:217-263 `sub`; `none` would be the panic of `Builder.Grow` on a negative count. The additions of
`unicodeLen` happen only to negative numbers, so they cannot overflow. -/
def sub (s : Bytes) (start stop : Int) : Option Bytes :=
  if s = [] then some []
  else
    let n : Int := len s
    let stop := if stop < 0 then stop + n else stop
    let stop := if stop > n then n else stop
    let start := if start < 0 then start + n else start
    if start > stop then some []
    else
      let start := if start < 0 then 0 else start
      let stop := if stop < 0 then 0 else stop
      if start = 0 ∧ stop = n then some s
      else if stop - start < 0 then none
      else some (subLoop (runes s) 0 start stop)

/-- xstring.go:201-203 `Sub` -/
def Sub (s : Bytes) (start stop : Int) : Option Bytes := sub s start stop
/-- xstring.go:207-209 `Left` -/
def left (s : Bytes) (stop : Int) : Option Bytes := sub s 0 stop
/-- xstring.go:213-215 `Right` (`math.MaxInt` = 2^63-1) -/
def right (s : Bytes) (start : Int) : Option Bytes := sub s start (2 ^ 63 - 1)

/-- xstring.go:175-197 `Rotate`. Note that `sLen` is the number of bytes. -/
def rotate (s : Bytes) (shift : Int) : Option Bytes :=
  if shift = 0 then some s
  else
    let sLen : Int := s.length
    if sLen = 0 then some s
    else
      let shiftMod := Int.tmod shift sLen
      if shiftMod = 0 then some s
      else do
        let offset := -shiftMod
        let r ← right s offset
        let l ← left s offset
        pure (r ++ l)

/-- Outcome of `Reverse`: the string and whether an error is reported. -/
structure Reversed where
  str : Bytes
  err : Bool
  deriving DecidableEq

/-- `utf8.EncodeRune(dst[i:], r)`: panics if the slice is too short. -/
def encodeAt (dst : Bytes) (i : Nat) (r : Int) : Option Bytes :=
  let e := encodeRune r
  if i + e.length ≤ dst.length then some (dst.take i ++ e ++ dst.drop (i + e.length)) else none

/-- The loop of xstring.go:286-296; the fuel `srcIndex` is enough because every decoded rune has width ≥ 1. -/
def reverseLoop (src : Bytes) : (fuel : Nat) → (srcIndex dstIndex : Nat) → (dst : Bytes) → Option Reversed
  | 0, _, _, dst => some ⟨dst, false⟩
  | f + 1, srcIndex, dstIndex, dst =>
    if srcIndex > 0 then
      let (r, n) := decodeLastRune (src.take srcIndex)
      if r = runeError then some ⟨dst, true⟩
      else
        match encodeAt dst dstIndex r with
        | none => none
        | some dst' => reverseLoop src f (srcIndex - n) (dstIndex + n) dst'
    else some ⟨dst, false⟩

/-- xstring.go:277-299 `Reverse` -/
def reverse (s : Bytes) : Option Reversed :=
  if s = [] then some ⟨s, false⟩
  else reverseLoop s s.length s.length 0 (List.replicate s.length 0)

/-- xstring.go:266-274 `MustReverse` (panics on error) -/
def mustReverse (s : Bytes) : Option Bytes :=
  match reverse s with
  | none => none
  | some r => if r.err then none else some r.str

/-- The loop of xstring.go:309-314, `i` from `len-1` down to 1; `rnd i` is what `rand.Intn(i+1)` returns. -/
def shuffleLoop (rnd : Nat → Nat) : Nat → List Int → Option (List Int)
  | 0, rs => some rs
  | i + 1, rs =>
    let idx := rnd (i + 1)
    if i + 1 ≠ idx then
      match rs[i + 1]?, rs[idx]? with
      | some a, some b => shuffleLoop rnd i ((rs.set (i + 1) b).set idx a)
      | _, _ => none
    else shuffleLoop rnd i rs

/-- xstring.go:302-317 `Shuffle` -/
def shuffle (rnd : Nat → Nat) (s : Bytes) : Option Bytes :=
  if s = [] then some s
  else (shuffleLoop rnd ((runes s).length - 1) (runes s)).map encodeAll

/-- Go's `strings.Contains` -/
def stringsContains (s sub : Bytes) : Bool := (index sub s).isSome

/-- xstring.go:320-332 `ContainsAnySubstrings` -/
def containsAnySubstrings (s : Bytes) (subs : List Bytes) : Bool :=
  match subs with
  | [] => false
  | v :: vs => if stringsContains s v then true else containsAnySubstrings s vs

/-- The `for … { if !p(v) { return false } }; return true` loops. -/
def allLoop (p : Int → Bool) : List Int → Bool
  | [] => true
  | v :: vs => if !p v then false else allLoop p vs

/-- xstring.go:335-347 `IsAlpha` -/
def isAlpha (u : Unicode) (s : Bytes) : Bool := if s = [] then false else allLoop u.isLetter (runes s)
/-- xstring.go:364-366 `isAlphanumeric` -/
def isAlphanumericChar (u : Unicode) (v : Int) : Bool := u.isDigit v || u.isLetter v
/-- xstring.go:350-362 `IsAlphanumeric` -/
def isAlphanumeric (u : Unicode) (s : Bytes) : Bool :=
  if s = [] then false else allLoop (isAlphanumericChar u) (runes s)
/-- xstring.go:369-381 `IsNumeric` -/
def isNumeric (u : Unicode) (s : Bytes) : Bool := if s = [] then false else allLoop u.isDigit (runes s)
/-- xstring.go:384-386 `IsEmpty` -/
def isEmpty (s : Bytes) : Bool := decide (s = [])
/-- xstring.go:389-391 `IsNotEmpty` -/
def isNotEmpty (s : Bytes) : Bool := !isEmpty s
/-- The `for … { if p(s) { return true } }; return false` loops. -/
def anyLoop (p : Bytes → Bool) : List Bytes → Bool
  | [] => false
  | v :: vs => if p v then true else anyLoop p vs
/-- xstring.go:394-405 `IsAnyEmpty` -/
def isAnyEmpty (ss : List Bytes) : Bool := if ss.length = 0 then true else anyLoop isEmpty ss
/-- xstring.go:408-410 `IsNoneEmpty` -/
def isNoneEmpty (ss : List Bytes) : Bool := !isAnyEmpty ss
/-- xstring.go:413-425 `IsBlank` -/
def isBlank (u : Unicode) (s : Bytes) : Bool := if s = [] then true else allLoop u.isSpace (runes s)
/-- xstring.go:428-430 `IsNotBlank` -/
def isNotBlank (u : Unicode) (s : Bytes) : Bool := !isBlank u s
/-- xstring.go:433-446 `IsAnyBlank` -/
def isAnyBlank (u : Unicode) (ss : List Bytes) : Bool := if ss.length = 0 then true else anyLoop (isBlank u) ss
/-- xstring.go:449-451 `IsNoneBlank` -/
def isNoneBlank (u : Unicode) (ss : List Bytes) : Bool := !isAnyBlank u ss

/-- Go's `strings.TrimLeftFunc`: drop leading runes satisfying `p`. Fuel `len(s)`. -/
def trimLeftLoop (p : Int → Bool) : Nat → Bytes → Bytes
  | 0, s => s
  | f + 1, s =>
    if s = [] then s
    else
      let (r, n) := decodeRune s
      if p r then trimLeftLoop p f (s.drop n) else s
/-- Go's `strings.TrimRightFunc`: drop trailing runes satisfying `p`. Fuel `len(s)`. -/
def trimRightLoop (p : Int → Bool) : Nat → Bytes → Bytes
  | 0, s => s
  | f + 1, s =>
    if s = [] then s
    else
      let (r, n) := decodeLastRune s
      if p r then trimRightLoop p f (s.take (s.length - n)) else s
/-- Go's `strings.TrimLeftFunc`, used by xstring.go:455-482. -/
def trimLeftP (p : Int → Bool) (s : Bytes) : Bytes := trimLeftLoop p s.length s
/-- Go's `strings.TrimRightFunc`, used by xstring.go:455-482. -/
def trimRightP (p : Int → Bool) (s : Bytes) : Bytes := trimRightLoop p s.length s
/-- "code point contained in cutset" -/
def inSet (cutset : Bytes) (r : Int) : Bool := (runes cutset).contains r
/-- xstring.go:455-457 `TrimSpace` -/
def trimSpace (u : Unicode) (s : Bytes) : Bytes := trimRightP u.isSpace (trimLeftP u.isSpace s)
/-- xstring.go:461-467 `Trim`; `strings.Trim` trims on the right first. -/
def trim (s cutset : Bytes) : Bytes :=
  if isEmpty s then s else trimLeftP (inSet cutset) (trimRightP (inSet cutset) s)
/-- xstring.go:473-475 `TrimLeft` -/
def trimLeft (s cutset : Bytes) : Bytes := trimLeftP (inSet cutset) s
/-- xstring.go:481-483 `TrimRight` -/
def trimRight (s cutset : Bytes) : Bytes := trimRightP (inSet cutset) s

/-- xstring.go:486-492 `Contains` -/
def contains (s search : Bytes) : Bool := if s = [] then false else stringsContains s search

/-- Regular expressions as used by `IsNumerical`, over runes. -/
inductive Re where
  | cls (p : Int → Bool)
  | star (r : Re)
  | opt (r : Re)
  | seq (a b : Re)

/-- The language of a regular expression (`regexp` semantics anchored at both ends). -/
inductive Re.Matches : Re → List Int → Prop where
  | cls {p c} : p c = true → Matches (.cls p) [c]
  | starNil {r} : Matches (.star r) []
  | starCons {r a b} : Matches r a → Matches (.star r) b → Matches (.star r) (a ++ b)
  | optNone {r} : Matches (.opt r) []
  | optSome {r a} : Matches r a → Matches (.opt r) a
  | seq {r q a b} : Matches r a → Matches q b → Matches (.seq r q) (a ++ b)

/-- `\d`: ASCII digit -/
def reDigit (c : Int) : Bool := decide (48 ≤ c ∧ c ≤ 57)
/-- `.`: any character except newline -/
def reDot (c : Int) : Bool := decide (c ≠ 10)
/-- xstring.go:496 the expression `^\d+.?\d*$`; `\d+` is `\d\d*`. -/
def numericalRe : Re :=
  .seq (.seq (.cls reDigit) (.star (.cls reDigit))) (.seq (.opt (.cls reDot)) (.star (.cls reDigit)))
/-- xstring.go:495-498 `IsNumerical`, as a proposition: the expression matches the whole string. -/
def IsNumerical (s : Bytes) : Prop := numericalRe.Matches (runes s)

/-- The loop of xstring.go:526-531: does some later string differ from `c` at `pos`? `none`: index out of range. -/
def diffInner (c : Int) (pos : Nat) : List (List Int) → Option Bool
  | [] => some false
  | r :: rs =>
    match r[pos]? with
    | none => none
    | some x => if x ≠ c then some true else diffInner c pos rs

/-- The loop of xstring.go:524-535, `fuel` = remaining iterations up to `shortestStrLen`. -/
def diffOuter (r0 : List Int) (rest : List (List Int)) : (fuel pos : Nat) → Option Int
  | 0, _ => some (-1)
  | f + 1, pos =>
    match r0[pos]? with
    | none => none
    | some c =>
      match diffInner c pos rest with
      | none => none
      | some true => some (pos : Int)
      | some false => diffOuter r0 rest f (pos + 1)

/-- The loop of xstring.go:510-515 over `xmath.MinInt`/`MaxInt`. -/
def lenLoop (ovf : Int → Int) : List (List Int) → (shortest longest : Int) → Int × Int
  | [], a, b => (a, b)
  | r :: rs, a, b => lenLoop ovf rs (minInt ovf r.length a) (maxInt ovf r.length b)

/-- xstring.go:502-545 on the decoded strings; `initial` is the initial value of `shortestStrLen` (line 506). -/
def indexOfDifferenceRunes (ovf : Int → Int) (initial : Int) (rs : List (List Int)) : Option Int :=
  match rs with
  | [] => some (-1)
  | [_] => some (-1)
  | r0 :: rest =>
    let (shortest, longest) := lenLoop ovf rs initial 0
    if longest = 0 then some (-1)
    else if shortest = 0 then some 0
    else
      match diffOuter r0 rest shortest.toNat 0 with
      | none => none
      | some d => if d = -1 ∧ shortest ≠ longest then some shortest else some d

/-- xstring.go:502-545 `IndexOfDifference` (`2<<32 - 1` is `2^33 - 1`). -/
def indexOfDifference (ovf : Int → Int) (ss : List Bytes) : Option Int :=
  indexOfDifferenceRunes ovf (2 ^ 33 - 1) (ss.map runes)

/-- The loop of xstring.go:558: first position where the lists differ or one ends. -/
def diffTwo : List Int → List Int → Nat
  | a :: as, b :: bs => if a = b then diffTwo as bs + 1 else 0
  | _, _ => 0

/-- xstring.go:549-564 `IndexOfDifferenceWithTwoStr` -/
def indexOfDifferenceTwo (a b : Bytes) : Int :=
  if a = b then -1
  else
    let i := diffTwo (runes a) (runes b)
    if i ≥ (runes a).length ∧ i ≥ (runes b).length then -1 else i

/-- xstring.go:570-577 `Difference`; `none`: slice bounds panic. -/
def difference (a b : Bytes) : Option Bytes :=
  let i := indexOfDifferenceTwo a b
  if i = -1 then some []
  else if 0 ≤ i ∧ i ≤ ((runes b).length : Int) then some (encodeAll ((runes b).drop i.toNat)) else none

/-- xstring.go:580-595 `CommonPrefix` -/
def commonPrefix (ovf : Int → Int) (ss : List Bytes) : Option Bytes :=
  match ss with
  | [] => some []
  | s0 :: _ =>
    match indexOfDifference ovf ss with
    | none => none
    | some i =>
      if i = -1 then some s0
      else if i = 0 then some []
      else if 0 ≤ i ∧ i ≤ ((runes s0).length : Int) then some (encodeAll ((runes s0).take i.toNat)) else none

/-- Go's `strings.ToLower` -/
def toLower (u : Unicode) (s : Bytes) : Bytes := encodeAll ((runes s).map u.lower)

/-- One comparison of xstring.go:645-658 -/
def charMatches (u : Unicode) (ignoreCase : Bool) (c1 c2 : Int) : Bool :=
  if c1 = c2 then true
  else if ignoreCase then
    if u.upper c1 = u.upper c2 then true
    else if u.lower (u.upper c1) = u.lower (u.upper c2) then true
    else false
  else false

/-- The loop of xstring.go:640-660; `none`: index out of range. -/
def regionLoop (u : Unicode) (ignoreCase : Bool) (a b : List Int) : (length i j : Nat) → Option Bool
  | 0, _, _ => some true
  | n + 1, i, j =>
    match a[i]?, b[j]? with
    | some c1, some c2 => if charMatches u ignoreCase c1 c2 then regionLoop u ignoreCase a b n (i + 1) (j + 1)
                          else some false
    | _, _ => none

/-- xstring.go:623-663 `RegionMatches` -/
def regionMatches (u : Unicode) (str : Bytes) (ignoreCase : Bool) (thisStart : Int) (substr : Bytes)
    (start length : Int) : Option Bool :=
  let str := if ignoreCase then toLower u str else str
  let substr := if ignoreCase then toLower u substr else substr
  if thisStart < 0 ∨ start < 0 ∨ length < 0 then some false
  else if (len str : Int) - thisStart < length ∨ (len substr : Int) - start < length then some false
  else regionLoop u ignoreCase (runes str) (runes substr) length.toNat thisStart.toNat start.toNat

/-- The loop of xstring.go:613-617, `i` counting up, `fuel` iterations left. -/
def containsLoop (u : Unicode) (str search : Bytes) : (fuel : Nat) → (i : Int) → Option Bool
  | 0, _ => some false
  | f + 1, i =>
    match regionMatches u str true i search 0 (len search) with
    | none => none
    | some true => some true
    | some false => containsLoop u str search f (i + 1)

/-- xstring.go:609-620 `ContainsIgnoreCase` -/
def containsIgnoreCase (u : Unicode) (str search : Bytes) : Option Bool :=
  let max : Int := (len str : Int) - len search
  containsLoop u str search (max + 1).toNat 0

/-- xstring.go:671-677 `DefaultIfBlank` -/
def defaultIfBlank (u : Unicode) (s d : Bytes) : Bytes := if isBlank u s then d else s
/-- xstring.go:680-686 `DefaultIfEmpty` -/
def defaultIfEmpty (s d : Bytes) : Bytes := if isEmpty s then d else s

/-- The loop of xstring.go:698-702 -/
def deleteSpaceLoop (u : Unicode) : List Int → Bytes
  | [] => []
  | v :: vs => (if !u.isSpace v then encodeRune v else []) ++ deleteSpaceLoop u vs

/-- xstring.go:689-713 `DeleteWhitespace`. Note that a byte count is compared with a character count. -/
def deleteWhitespace (u : Unicode) (s : Bytes) : Bytes :=
  if s = [] then []
  else
    let strLen := len s
    let b := deleteSpaceLoop u (runes s)
    if b.length = strLen then s
    else if b.length = 0 then []
    else b

/-- xstring.go:716-729 `EndsWith` -/
def endsWith (u : Unicode) (s suffix : Bytes) (ignoreCase : Bool) : Option Bool :=
  if s = suffix then some true
  else
    let strLen : Int := len s
    let suffixLen : Int := len suffix
    if suffixLen > strLen then some false
    else regionMatches u s ignoreCase (strLen - suffixLen) suffix 0 suffixLen

/-- xstring.go:732-734 `EndsWithIgnoreCase` -/
def endsWithIgnoreCase (u : Unicode) (s suffix : Bytes) : Option Bool := endsWith u s suffix true
/-- xstring.go:737-739 `EndsWithCase` -/
def endsWithCase (u : Unicode) (s suffix : Bytes) : Option Bool := endsWith u s suffix false

/-- The loop of xstring.go:747-751 -/
def endsWithAnyLoop (u : Unicode) (s : Bytes) : List Bytes → Option Bool
  | [] => some false
  | x :: xs =>
    match endsWith u s x false with
    | none => none
    | some true => some true
    | some false => endsWithAnyLoop u s xs

/-- xstring.go:742-754 `EndsWithAny` -/
def endsWithAny (u : Unicode) (s : Bytes) (xs : List Bytes) : Option Bool :=
  if isEmpty s || xs.length = 0 then some false else endsWithAnyLoop u s xs

/-- xstring.go:757-763 `EqualsIgnoreCase` -/
def equalsIgnoreCase (u : Unicode) (a b : Bytes) : Option Bool :=
  if a = b then some true else regionMatches u a true 0 b 0 (len a)

/-- xstring.go:766-776 `EqualsAny` -/
def equalsAny (a : Bytes) (xs : List Bytes) : Bool := anyLoop (fun b => decide (a = b)) xs

/-- Result of `Abbreviate`: a string, an error, a panic, or (never, see `abbreviate_fuel`) recursion deeper than the
model's fuel. -/
inductive Abbr where
  | ok (s : Bytes)
  | err (minWidth : Int)
  | panic
  | deep
  deriving DecidableEq

/-- The outcome of an expression that can panic (`none`). -/
def Abbr.ofOption : Option Bytes → Abbr
  | some s => .ok s
  | none => .panic

/-- xstring.go:779-818 `Abbreviate`, with a recursion budget (the code recurses at most once).
`strLen - offset` can overflow for very negative `offset`; no other operation can. -/
def abbreviateF : Nat → (str marker : Bytes) → (offset maxWidth : Int) → Abbr
  | 0, _, _, _, _ => .deep
  | f + 1, str, marker, offset, maxWidth =>
    if isNotEmpty str ∧ marker = [] ∧ maxWidth > 0 then .ofOption (Sub str 0 maxWidth)
    else if isAnyEmpty [str, marker] then .ok str
    else
      let m : Int := len marker
      if maxWidth < m + 1 then .err (m + 1)
      else
        let strLen : Int := len str
        if strLen ≤ maxWidth then .ok str
        else
          let offset := if offset > strLen then strLen else offset
          let offset := if wrap64 (strLen - offset) < maxWidth - m then strLen - (maxWidth - m) else offset
          if offset ≤ m + 1 then
            .ofOption ((Sub str 0 (maxWidth - m)).map (· ++ marker))
          else if maxWidth < 2 * m + 1 then .err (2 * m + 1)
          else if offset + maxWidth - m < strLen then
            match Sub str 0 offset with
            | none => .panic
            | some s0 =>
              match abbreviateF f s0 marker 0 (maxWidth - m) with
              | .ok t => .ok (marker ++ t)
              | e => e
          else .ofOption ((Sub str 0 (strLen - (maxWidth - m))).map (marker ++ ·))

/-- xstring.go:779-818 `Abbreviate` -/
def abbreviate (str marker : Bytes) (offset maxWidth : Int) : Abbr := abbreviateF 2 str marker offset maxWidth

end Verif.XString

import Verif.Go.IO
/-!
# Model of `xbinary/xbinary.go`

`xbytes.MallocSize(n)` gives a buffer of length `n` with arbitrary old contents; the contents are the parameter
`stale` of the read functions (the write functions overwrite every byte before use).
-/
namespace Verif.XBinary
open Verif.Go Verif.Go.IO

/-- `byte(i)` of an unsigned integer -/
def byte (i : Nat) : UInt8 := UInt8.ofNat i

/-- The two bytes of xbinary.go:35-36 for a `uint16` `i`. -/
def encode16 (i : Nat) : Bytes := [byte (i >>> 8), byte i]

/-- The four bytes of xbinary.go:107-110 for a `uint32` `i`. -/
def encode32 (i : Nat) : Bytes := [byte (i >>> 24), byte (i >>> 16), byte (i >>> 8), byte i]

/-- xbinary.go:32-41 `WriteUint16` -/
def writeUint16 (w : Writer) (i : Nat) : Writer × Option Err := w.write (encode16 i)

/-- xbinary.go:104-116 `WriteUint32` -/
def writeUint32 (w : Writer) (i : Nat) : Writer × Option Err := w.write (encode32 i)

/-- xbinary.go:61-72 `WriteBool` -/
def writeBool (w : Writer) (b : Bool) : Writer × Option Err := w.write [if b then 1 else 0]

/-- xbinary.go:121-128 `WriteBytes`: `uint16(len(s))` keeps the low 16 bits. -/
def writeBytes (w : Writer) (s : Bytes) : Writer × Option Err :=
  match writeUint16 w (s.length % 2 ^ 16) with
  | (w', none) => w'.write s
  | (w', some e) => (w', some e)

/-- Result of a typed read: a value or an error. -/
abbrev Res (α : Type) := Except Err α

/-- `binary.BigEndian.Uint16(data)`; panics (index out of range) on short input, which cannot happen here. -/
def be16 : Bytes → Option Nat
  | a :: b :: _ => some (b.toNat ||| a.toNat <<< 8)
  | _ => none

/-- `binary.BigEndian.Uint32(data)` -/
def be32 : Bytes → Option Nat
  | a :: b :: c :: d :: _ => some (d.toNat ||| c.toNat <<< 8 ||| b.toNat <<< 16 ||| a.toNat <<< 24)
  | _ => none

variable {σ : Type}

/-- xbinary.go:44-56 `ReadUint16`; outer `none` = panic. -/
def readUint16 (R : Reader σ) (s : σ) (stale : Bytes) : Option (Res Nat × σ) :=
  let r := R.read s stale
  match r.err with
  | some e => some (.error e, r.next)
  | none => if r.n < 2 then some (.error .invalidLength, r.next) else (be16 r.buf).map (fun v => (.ok v, r.next))

/-- xbinary.go:89-101 `ReadUint32` -/
def readUint32 (R : Reader σ) (s : σ) (stale : Bytes) : Option (Res Nat × σ) :=
  let r := R.read s stale
  match r.err with
  | some e => some (.error e, r.next)
  | none => if r.n < 4 then some (.error .invalidLength, r.next) else (be32 r.buf).map (fun v => (.ok v, r.next))

/-- xbinary.go:75-84 `ReadBool`: the number of bytes read is ignored. -/
def readBool (R : Reader σ) (s : σ) (stale : Bytes) : Option (Res Bool × σ) :=
  let r := R.read s stale
  match r.err with
  | some e => some (.error e, r.next)
  | none => r.buf.head?.map (fun b => (.ok (b == 1), r.next))

/-- Result of `ReadBytes`, which may block for ever in `io.ReadFull`. -/
inductive RB (σ : Type) where
  | ok (b : Bytes) (s : σ)
  | error (e : Err) (s : σ)
  | running
  | panic

/-- xbinary.go:131-148 `ReadBytes`; `hdr` is the old content of the pooled buffer for the length, `stale n` that of the
pooled buffer of length `n` for the contents. An empty payload is
returned as nil, which is not distinguished from an empty slice here. -/
def readBytes (R : Reader σ) (s : σ) (hdr : Bytes) (stale : Nat → Bytes) (fuel : Nat) : RB σ :=
  match readUint16 R s hdr with
  | none => .panic
  | some (.error e, s') => .error e s'
  | some (.ok length, s') =>
    if length = 0 then .ok [] s'
    else
      match readFullLoop R fuel s' (stale length) 0 with
      | none => .running
      | some r =>
        match r.err with
        | some e => .error e r.next
        | none => .ok r.buf r.next

end Verif.XBinary

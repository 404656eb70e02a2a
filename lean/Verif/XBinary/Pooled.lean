import Verif.XBinary.Model
import Verif.XBytes.Share
/-!
# Model of `xbinary/xbinary.go` on shared pooled memory

The functions as programs of a goroutine (`XBytes.Code`): every byte of a buffer is read or written in a step of its own,
and any other goroutine may run between two steps, also while a reader or writer is at work on a buffer. The reader and the
writer of a call are the ones of `Go/IO.lean`; they access only the slice they are given and keep nothing of it after they
return (contract of `io.Reader` and `io.Writer`). A reader and a writer are used by one goroutine at a time.
-/
namespace Verif.XBinary
open Verif.Go Verif.Go.IO Verif.XBytes

variable {α σ : Type}

/-- Store bytes from index `off` on. -/
def storeAll (h : Nat) : (off : Nat) → Bytes → Code α → Code α
  | _, [], k => k
  | off, b :: bs, k => .store h off b (storeAll h (off + 1) bs k)

/-- Load `n` bytes from index `off` on. -/
def loadAll (h : Nat) : (off n : Nat) → (Bytes → Code α) → Code α
  | _, 0, k => k []
  | off, n + 1, k => .load h off fun b => loadAll h (off + 1) n fun bs => k (b :: bs)

/-- `w.Write(h)` for a slice of length `n`: the writer reads the slice. -/
def writeC (w : Writer) (h n : Nat) : Code (Writer × Option Err) := loadAll h 0 n fun bs => .ret (w.write bs)

/-- `r.Read(h[off:n])` for a slice of length `n`: the reader may look at the old contents and may overwrite all of it. -/
def readC (R : Reader σ) (s : σ) (h off n : Nat) : Code (Nat × Option Err × σ) :=
  loadAll h off (n - off) fun bs =>
    let r := R.read s bs
    storeAll h off r.buf (.ret (r.n, r.err, r.next))

/-- xbinary.go:32-41 `WriteUint16` -/
def writeUint16C (w : Writer) (i : Nat) : Code (Writer × Option Err) :=
  .malloc 2 2 fun h => .store h 0 (byte (i >>> 8)) <| .store h 1 (byte i) <| (writeC w h 2).bind fun r => .free h (.ret r)

/-- xbinary.go:104-116 `WriteUint32` -/
def writeUint32C (w : Writer) (i : Nat) : Code (Writer × Option Err) :=
  .malloc 4 4 fun h => .store h 0 (byte (i >>> 24)) <| .store h 1 (byte (i >>> 16)) <| .store h 2 (byte (i >>> 8)) <|
    .store h 3 (byte i) <| (writeC w h 4).bind fun r => .free h (.ret r)

/-- xbinary.go:61-72 `WriteBool` -/
def writeBoolC (w : Writer) (b : Bool) : Code (Writer × Option Err) :=
  .malloc 1 1 fun h => .store h 0 (if b then 1 else 0) <| (writeC w h 1).bind fun r => .free h (.ret r)

/-- xbinary.go:121-128 `WriteBytes` for a slice `h` of length `n` of the caller. -/
def writeBytesC (w : Writer) (h n : Nat) : Code (Writer × Option Err) :=
  (writeUint16C w (n % 2 ^ 16)).bind fun r =>
    match r with
    | (w', none) => writeC w' h n
    | (w', some e) => .ret (w', some e)

/-- xbinary.go:44-56 `ReadUint16`; the deferred `Free` runs after the result has been computed. -/
def readUint16C (R : Reader σ) (s : σ) : Code (Res Nat × σ) :=
  .malloc 2 2 fun h => (readC R s h 0 2).bind fun r =>
    match r.2.1 with
    | some e => .free h (.ret (.error e, r.2.2))
    | none =>
      if r.1 < 2 then .free h (.ret (.error .invalidLength, r.2.2))
      else .load h 1 fun b1 => .load h 0 fun b0 => .free h (.ret (.ok (b1.toNat ||| b0.toNat <<< 8), r.2.2))

/-- xbinary.go:89-101 `ReadUint32` -/
def readUint32C (R : Reader σ) (s : σ) : Code (Res Nat × σ) :=
  .malloc 4 4 fun h => (readC R s h 0 4).bind fun r =>
    match r.2.1 with
    | some e => .free h (.ret (.error e, r.2.2))
    | none =>
      if r.1 < 4 then .free h (.ret (.error .invalidLength, r.2.2))
      else .load h 3 fun b3 => .load h 2 fun b2 => .load h 1 fun b1 => .load h 0 fun b0 =>
        .free h (.ret (.ok (b3.toNat ||| b2.toNat <<< 8 ||| b1.toNat <<< 16 ||| b0.toNat <<< 24), r.2.2))

/-- xbinary.go:75-84 `ReadBool` -/
def readBoolC (R : Reader σ) (s : σ) : Code (Res Bool × σ) :=
  .malloc 1 1 fun h => (readC R s h 0 1).bind fun r =>
    match r.2.1 with
    | some e => .free h (.ret (.error e, r.2.2))
    | none => .load h 0 fun b0 => .free h (.ret (.ok (b0 == 1), r.2.2))

/-- `io.ReadFull(r, h)` for a slice of length `n` (see `readFullLoop`): `none` means still looping after `fuel` reads. -/
def readFullC (R : Reader σ) (h n : Nat) : (fuel : Nat) → σ → (done : Nat) → Code (Option (Option Err × σ))
  | 0, _, _ => .ret none
  | f + 1, s, done =>
    if done < n then
      (readC R s h done n).bind fun r =>
        let done' := done + r.1
        match r.2.1 with
        | none => readFullC R h n f r.2.2 done'
        | some e =>
          if done' ≥ n then .ret (some (none, r.2.2))
          else if done' > 0 ∧ e = .eof then .ret (some (some .unexpectedEof, r.2.2))
          else .ret (some (some e, r.2.2))
    else .ret (some (none, s))

/-- What a call returns; `H` is the type of slices. `running`: the call is still reading (`io.ReadFull` may loop for ever). -/
inductive Out (H : Type) where
  | ok
  | num (n : Nat)
  | flag (b : Bool)
  | slice (x : H)
  | err (e : Err)
  | running

/-- xbinary.go:131-148 `ReadBytes`; the slice is `none` for nil, otherwise the pooled buffer, which is not freed. -/
def readBytesC (R : Reader σ) (fuel : Nat) (s : σ) : Code (Out (Option Nat) × σ) :=
  (readUint16C R s).bind fun r =>
    match r with
    | (.error e, s') => .ret (.err e, s')
    | (.ok length, s') =>
      if length = 0 then .ret (.slice none, s')
      else .malloc length length fun h => (readFullC R h length fuel s' 0).bind fun q =>
        match q with
        | none => .ret (.running, s)
        | some (some e, s'') => .free h (.ret (.err e, s''))
        | some (none, s'') => .ret (.slice (some h), s'')

/-! ## Goroutines that make many calls -/

/-- A call of the package; for `WriteBytes` with the contents of the caller's slice. -/
inductive Call where
  | w16 (i : Nat)
  | w32 (i : Nat)
  | wbool (b : Bool)
  | wbytes (b : Bytes)
  | r16
  | r32
  | rbool
  | rbytes

/-- The result of a write. -/
def outW {H : Type} (r : Writer × Option Err) (s : σ) : Out H × Writer × σ :=
  match r.2 with
  | none => (.ok, r.1, s)
  | some e => (.err e, r.1, s)

/-- The result of a read. -/
def outR {H β : Type} (f : β → Out H) (w : Writer) (r : Res β × σ) : Out H × Writer × σ :=
  match r.1 with
  | .ok v => (f v, w, r.2)
  | .error e => (.err e, w, r.2)

/-- One call by a goroutine with writer `w` and reader `s`. The slice given to `WriteBytes` is made by the caller and given
to `xbytes.Free` after the call, so that buffers from elsewhere get into the pools, too. -/
def callC (R : Reader σ) (fuel : Nat) (w : Writer) (s : σ) : Call → Code (Out (Option Nat) × Writer × σ)
  | .w16 i => (writeUint16C w i).bind fun r => .ret (outW r s)
  | .w32 i => (writeUint32C w i).bind fun r => .ret (outW r s)
  | .wbool b => (writeBoolC w b).bind fun r => .ret (outW r s)
  | .wbytes b => .make b.length b.length fun h => storeAll h 0 b <| (writeBytesC w h b.length).bind fun r =>
      .free h (.ret (outW r s))
  | .r16 => (readUint16C R s).bind fun r => .ret (outR .num w r)
  | .r32 => (readUint32C R s).bind fun r => .ret (outR .num w r)
  | .rbool => (readBoolC R s).bind fun r => .ret (outR .flag w r)
  | .rbytes => (readBytesC R fuel s).bind fun r => .ret (r.1, w, r.2)

/-- A goroutine that makes the calls `cs` one after the other and collects the results; it keeps the slices that
`ReadBytes` returns. It stops when a call does not return. -/
def sessionC (R : Reader σ) (fuel : Nat) : List Call → Writer → σ → Code (List (Out (Option Nat)) × Writer × σ)
  | [], w, s => .ret ([], w, s)
  | c :: cs, w, s => (callC R fuel w s c).bind fun r =>
    match r.1 with
    | .running => .ret ([.running], r.2)
    | o => (sessionC R fuel cs r.2.1 r.2.2).bind fun q => .ret (o :: q.1, q.2)

end Verif.XBinary

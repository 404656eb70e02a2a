import Verif.XIO.Model
/-!
# Model of `xio/buffer.go` for sources and destinations that are themselves buffered

`GetBufferReader(r)` where `r` is a `*bufio.Reader`, `GetBufferWriter(w)` where `w` is a `*bufio.Writer`, and so on to any depth. Reading and
writing through such a chain is modelled here. `Model.lean` has the pools, and the readers and writers on plain sources and destinations.
-/
namespace Verif.XIO
open Verif.Go Verif.Go.IO

/-! ## Readers -/

/-- `(*bufio.Reader).Read(p)` with `len(p) = n` on the reader `id`: one call makes at most one `Read` call on its source, so that the choices
`k`, `e` of the plain source at the end of the chain suffice. `none`: panic (nil source), or a chain longer than `depth`. For plain sources this
is `BReader.read`. -/
def readAt : (depth : Nat) → List BReader → (id n k : Nat) → Option Err → Option (Bytes × Option Err × List BReader)
  | 0, _, _, _, _, _ => none
  | f + 1, objs, id, n, k, e =>
    match objs[id]? with
    | none => none
    | some b =>
      match b.src with
      | .buffered j =>
        if n = 0 then
          if b.unread ≠ [] then some ([], none, objs) else some ([], b.err, objs.set id { b with err := none })
        else if b.unread = [] then
          if b.err ≠ none then some ([], b.err, objs.set id { b with err := none })
          else if n ≥ b.size then readAt f objs j n k e
          else
            match readAt f objs j b.size k e with
            | none => none
            | some (d, e', objs') =>
              if d.isEmpty then some ([], e', objs')
              else some (d.take n, none, objs'.set id { b with unread := d.drop n, err := e' })
        else some (b.unread.take n, none, objs.set id { b with unread := b.unread.drop n })
      | _ => (b.read n k e).map fun (d, err, b') => (d, err, objs.set id b')

/-- `Read` on the reader `id`. A chain without repetition is no longer than the list of readers. -/
def readObj (objs : List BReader) (id n k : Nat) (e : Option Err) : Option (Bytes × Option Err × List BReader) :=
  readAt objs.length objs id n k e

/-! ## Writers -/

/-- What a writer writes to: nil, a plain `io.Writer`, or another `*bufio.Writer`. -/
inductive Dst where
  | nil
  | plain (w : Writer)
  | buffered (id : Nat)

/-- The buffer of a `bufio.Writer`: `buf = b.buf[:n]`, `size = len(b.buf)`, and the sticky error. -/
structure WBuf where
  buf : Bytes
  size : Nat
  err : Option Err

/-- `bufio.Writer` -/
structure CWriter where
  b : WBuf
  dst : Dst

/-- A `Write` method: bytes accepted, error, next state; `none` = panic. -/
abbrev Sink (σ : Type) := σ → Bytes → Option (Nat × Option Err × σ)

/-- `(*bufio.Writer).Flush`. The destination obeys the contract of `io.Writer`, so that `io.ErrShortWrite` does not occur. -/
def WBuf.flush {σ : Type} (snk : Sink σ) (b : WBuf) (s : σ) : Option (Option Err × WBuf × σ) :=
  match b.err with
  | some e => some (some e, b, s)
  | none =>
    if b.buf = [] then some (none, b, s)
    else
      match snk s b.buf with
      | none => none
      | some (_, none, s') => some (none, { b with buf := [] }, s')
      | some (n, some e, s') => some (some e, { b with buf := b.buf.drop n, err := some e }, s')

/-- The loop of `(*bufio.Writer).Write(p)`: the rest of `p`, the writer and the destination afterwards. As in `BWriter.writeLoop` two rounds
suffice. -/
def WBuf.writeLoop {σ : Type} (snk : Sink σ) : (fuel : Nat) → WBuf → σ → Bytes → Option (Bytes × WBuf × σ)
  | 0, b, s, p => some (p, b, s)
  | f + 1, b, s, p =>
    if p.length > b.size - b.buf.length ∧ b.err = none then
      if b.buf = [] then
        match snk s p with
        | none => none
        | some (n, e, s') => WBuf.writeLoop snk f { b with err := e } s' (p.drop n)
      else
        let n := b.size - b.buf.length
        match ({ b with buf := b.buf ++ p.take n } : WBuf).flush snk s with
        | none => none
        | some (_, b', s') => WBuf.writeLoop snk f b' s' (p.drop n)
    else some (p, b, s)

/-- `(*bufio.Writer).Write(p)`; the first component is `nn`, the number of bytes taken from `p`. -/
def WBuf.write {σ : Type} (snk : Sink σ) (b : WBuf) (s : σ) (p : Bytes) : Option (Nat × Option Err × WBuf × σ) :=
  match WBuf.writeLoop snk 3 b s p with
  | none => none
  | some (p', b', s') =>
    match b'.err with
    | some e => some (p.length - p'.length, some e, b', s')
    | none => some (p.length, none, { b' with buf := b'.buf ++ p' }, s')

/-- The `Write` method of a plain destination -/
def plainSink : Sink Writer := fun w p =>
  match w.write p with
  | (w', none) => some (p.length, none, w')
  | (w', some e) => some (min (w.part w.calls) p.length, some e, w')

/-- The `Write` method of nil -/
def nilSink : Sink Unit := fun _ _ => none

/-- `(*bufio.Writer).Write(p)` on the writer `id` -/
def writeAt : (depth : Nat) → List CWriter → (id : Nat) → Bytes → Option (Nat × Option Err × List CWriter)
  | 0, _, _, _ => none
  | f + 1, objs, id, p =>
    match objs[id]? with
    | none => none
    | some b =>
      match b.dst with
      | .nil => (b.b.write nilSink () p).map fun (n, e, b', _) => (n, e, objs.set id ⟨b', .nil⟩)
      | .plain w => (b.b.write plainSink w p).map fun (n, e, b', w') => (n, e, objs.set id ⟨b', .plain w'⟩)
      | .buffered j => (b.b.write (fun o p => writeAt f o j p) objs p).map fun (n, e, b', objs') => (n, e, objs'.set id ⟨b', .buffered j⟩)

/-- `(*bufio.Writer).Flush` on the writer `id` -/
def flushAt (depth : Nat) (objs : List CWriter) (id : Nat) : Option (Option Err × List CWriter) :=
  match objs[id]? with
  | none => none
  | some b =>
    match b.dst with
    | .nil => (b.b.flush nilSink ()).map fun (e, b', _) => (e, objs.set id ⟨b', .nil⟩)
    | .plain w => (b.b.flush plainSink w).map fun (e, b', w') => (e, objs.set id ⟨b', .plain w'⟩)
    | .buffered j => (b.b.flush (fun o p => writeAt depth o j p) objs).map fun (e, b', objs') => (e, objs'.set id ⟨b', .buffered j⟩)

/-- `(*bufio.Writer).Write` of writer `id`, on whatever it is based (what buffer.go:59-76 returns). -/
def writeObj (objs : List CWriter) (id : Nat) (p : Bytes) : Option (Nat × Option Err × List CWriter) := writeAt objs.length objs id p

/-- `(*bufio.Writer).Flush` of writer `id`, on whatever it is based (what buffer.go:59-76 returns). -/
def flushObj (objs : List CWriter) (id : Nat) : Option (Option Err × List CWriter) := flushAt objs.length objs id

/-- Writers and their pool. -/
structure CWorld where
  objs : List CWriter
  pool : List Nat

/-- `(*bufio.Writer).Reset(w)` -/
def CWriter.reset (b : CWriter) (d : Dst) : CWriter := ⟨⟨[], b.b.size, none⟩, d⟩

/-- `bufio.NewWriterSize(w, size)` unless `w` is itself a big enough `*bufio.Writer`: sizes `≤ 0` become 4096. -/
def newCWriter (d : Dst) (size : Int) : CWriter := ⟨⟨[], if size ≤ 0 then 4096 else size.toNat, none⟩, d⟩

/-- buffer.go:59-66 `GetBufferWriterSize(w, size)` and buffer.go:69-76 `GetBufferWriter` (size 4096): without a pooled writer
`bufio.NewWriterSize` returns `w` itself if it is a `*bufio.Writer` whose buffer is at least `size`. -/
def getCWriter (w : CWorld) (choice : Option Nat) (d : Dst) (size : Int) : Nat × CWorld :=
  let fresh : Nat × CWorld :=
    match d with
    | .buffered id =>
      match w.objs[id]? with
      | some b => if (b.b.size : Int) ≥ size then (id, w) else (w.objs.length, { w with objs := w.objs ++ [newCWriter d size] })
      | none => (w.objs.length, { w with objs := w.objs ++ [newCWriter d size] })
    | _ => (w.objs.length, { w with objs := w.objs ++ [newCWriter d size] })
  match choice with
  | none => fresh
  | some i =>
    match w.pool[i]? with
    | none => fresh
    | some id => (id, ⟨w.objs.modify id (·.reset d), w.pool.eraseIdx i⟩)

/-- buffer.go:79-82 `PutBufferWriter` -/
def putCWriter (w : CWorld) (id : Nat) : CWorld := ⟨w.objs.modify id (·.reset .nil), w.pool ++ [id]⟩

end Verif.XIO

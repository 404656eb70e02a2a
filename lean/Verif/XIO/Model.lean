import Verif.Go.IO
/-!
# Model of `xio/buffer.go` and of the parts of `bufio` it uses

Objects (`*bufio.Reader` / `*bufio.Writer`) live in a list and are named by their index. `sync.Pool` is a bag of
names; `Get` returns any of them (a choice parameter) or nil; the garbage collector may drop names at any time.

A source is given by the bytes it still has; each `Read(p)` on it delivers any number of them (choice `k`) together
with any error (choice `e`). A destination is a `Go.IO.Writer`.
-/
namespace Verif.XIO
open Verif.Go Verif.Go.IO

/-! ## bufio.Reader -/

/-- What a reader reads from: nil, a plain `io.Reader` with the given remaining bytes, or another `*bufio.Reader`
(reading through the latter is modelled in `Chain.lean`). -/
inductive Src where
  | nil
  | plain (rest : Bytes)
  | buffered (id : Nat)
  deriving DecidableEq, Repr

/-- `bufio.Reader`: `unread = buf[r:w]`, `size = len(buf)`, the source and the pending error. -/
structure BReader where
  unread : Bytes
  size : Nat
  src : Src
  err : Option Err
  deriving DecidableEq, Repr

/-- `(*bufio.Reader).Reset(r)` drops buffered data and pending error and keeps the buffer. -/
def BReader.reset (b : BReader) (s : Src) : BReader := ⟨[], b.size, s, none⟩

/-- `bufio.NewReaderSize(r, size)` for a source that is not itself a big enough `*bufio.Reader`: minimum size 16. -/
def newReader (s : Src) (size : Int) : BReader := ⟨[], max size.toNat 16, s, none⟩

/-- One `Read(p)` with `len(p) = m` on a plain source: `min k m` bytes (fewer if there are fewer) and error `e`. -/
def srcRead (rest : Bytes) (m k : Nat) (e : Option Err) : Bytes × Bytes × Option Err :=
  (rest.take (min k m), rest.drop (min k m), e)

/-- `(*bufio.Reader).Read(p)` with `len(p) = n`: bytes stored in `p`, returned error, reader afterwards. `none`: nil
pointer panic, or a buffered source (see `Chain.lean`). `k`, `e`: choices of the source. -/
def BReader.read (b : BReader) (n k : Nat) (e : Option Err) : Option (Bytes × Option Err × BReader) :=
  if n = 0 then
    if b.unread ≠ [] then some ([], none, b) else some ([], b.err, { b with err := none })
  else if b.unread = [] then
    if b.err ≠ none then some ([], b.err, { b with err := none })
    else
      match b.src with
      | .plain rest =>
        if n ≥ b.size then
          let (d, rest', e') := srcRead rest n k e
          some (d, e', { b with src := .plain rest' })
        else
          let (d, rest', e') := srcRead rest b.size k e
          if d.isEmpty then some ([], e', { b with src := .plain rest' })
          else some (d.take n, none, { b with unread := d.drop n, src := .plain rest', err := e' })
      | _ => none
  else some (b.unread.take n, none, { b with unread := b.unread.drop n })

/-- Readers and their pool. -/
structure RWorld where
  objs : List BReader
  pool : List Nat

/-- buffer.go:31-38 `GetBufferReaderSize(r, size)` (and buffer.go:41-48 `GetBufferReader` with `size = 4096`):
`choice` picks the pooled reader; without one `bufio.NewReaderSize` is used, which returns `r` itself if `r` is a
`*bufio.Reader` whose buffer is at least `size`. Result: the name of the reader. -/
def getReader (w : RWorld) (choice : Option Nat) (s : Src) (size : Int) : Nat × RWorld :=
  let fresh : Nat × RWorld :=
    match s with
    | .buffered id =>
      match w.objs[id]? with
      | some b => if (b.size : Int) ≥ size then (id, w) else (w.objs.length, { w with objs := w.objs ++ [newReader s size] })
      | none => (w.objs.length, { w with objs := w.objs ++ [newReader s size] })
    | _ => (w.objs.length, { w with objs := w.objs ++ [newReader s size] })
  match choice with
  | none => fresh
  | some i =>
    match w.pool[i]? with
    | none => fresh
    | some id => (id, ⟨w.objs.modify id (·.reset s), w.pool.eraseIdx i⟩)

/-- buffer.go:51-54 `PutBufferReader` -/
def putReader (w : RWorld) (id : Nat) : RWorld := ⟨w.objs.modify id (·.reset .nil), w.pool ++ [id]⟩

/-! ## bufio.Writer -/

/-- `bufio.Writer`: `buf = b.buf[:n]`, `size = len(b.buf)`, destination (nil after Put) and sticky error. -/
structure BWriter where
  buf : Bytes
  size : Nat
  dst : Option Writer
  err : Option Err

/-- `(*bufio.Writer).Reset(w)` -/
def BWriter.reset (b : BWriter) (d : Option Writer) : BWriter := ⟨[], b.size, d, none⟩

/-- `bufio.NewWriterSize(w, size)`: sizes `≤ 0` become 4096. -/
def newWriter (d : Option Writer) (size : Int) : BWriter := ⟨[], if size ≤ 0 then 4096 else size.toNat, d, none⟩

/-- `(*bufio.Writer).Flush`; `none` = nil pointer panic. On an error the unaccepted bytes stay in the buffer. -/
def BWriter.flush (b : BWriter) : Option (Option Err × BWriter) :=
  match b.err with
  | some e => some (some e, b)
  | none =>
    if b.buf = [] then some (none, b)
    else
      match b.dst with
      | none => none
      | some d =>
        match d.write b.buf with
        | (d', none) => some (none, { b with buf := [], dst := some d' })
        | (d', some e) => some (some e, { b with buf := b.buf.drop (d.part d.calls), dst := some d', err := some e })

/-- The loop of `(*bufio.Writer).Write(p)`: returns the rest of `p` and the writer. `none` = panic. Two rounds always
suffice: after one flush the buffer is empty and the rest goes out directly. -/
def BWriter.writeLoop : (fuel : Nat) → BWriter → Bytes → Option (Bytes × BWriter)
  | 0, b, p => some (p, b)
  | f + 1, b, p =>
    if p.length > b.size - b.buf.length ∧ b.err = none then
      if b.buf = [] then
        match b.dst with
        | none => none
        | some d =>
          match d.write p with
          | (d', none) => BWriter.writeLoop f { b with dst := some d' } []
          | (d', some e) => BWriter.writeLoop f { b with dst := some d', err := some e } (p.drop (d.part d.calls))
      else
        let n := b.size - b.buf.length
        match ({ b with buf := b.buf ++ p.take n } : BWriter).flush with
        | none => none
        | some (_, b') => BWriter.writeLoop f b' (p.drop n)
    else some (p, b)

/-- `(*bufio.Writer).Write(p)` -/
def BWriter.write (b : BWriter) (p : Bytes) : Option (Option Err × BWriter) :=
  match BWriter.writeLoop 3 b p with
  | none => none
  | some (p', b') =>
    match b'.err with
    | some e => some (some e, b')
    | none => some (none, { b' with buf := b'.buf ++ p' })

/-- buffer.go:27 `bufWriterPool`, and all `bufio.Writer`s. -/
structure WWorld where
  objs : List BWriter
  pool : List Nat

/-- buffer.go:59-66 `GetBufferWriterSize`, buffer.go:69-76 `GetBufferWriter` (size 4096) for a destination that is not
itself a `*bufio.Writer` (those are in `Chain.lean`). -/
def getWriter (w : WWorld) (choice : Option Nat) (d : Writer) (size : Int) : Nat × WWorld :=
  let fresh := (w.objs.length, { w with objs := w.objs ++ [newWriter (some d) size] })
  match choice with
  | none => fresh
  | some i =>
    match w.pool[i]? with
    | none => fresh
    | some id => (id, ⟨w.objs.modify id (·.reset (some d)), w.pool.eraseIdx i⟩)

/-- buffer.go:79-82 `PutBufferWriter` -/
def putWriter (w : WWorld) (id : Nat) : WWorld := ⟨w.objs.modify id (·.reset none), w.pool ++ [id]⟩

end Verif.XIO

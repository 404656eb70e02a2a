import Verif.Go.Utf8
/-!
# Model of `xstring/stringjoiner.go`

`*strings.Builder` is `Option Builder` (nil pointer = `none`); a builder is its bytes and its capacity. How far a
builder grows when it has to reallocate is left open: `G.newCap cap need` is any function with `need ≤ newCap cap need`.
-/
namespace Verif.XString.Joiner
open Verif.Go

/-- Growth policy of `append`/`strings.Builder`: the capacity after room for `need` bytes had to be made. -/
structure Growth where
  newCap : (cap need : Nat) → Nat
  enough : ∀ cap need, need ≤ newCap cap need

/-- Go's `strings.Builder` -/
structure Builder where
  buf : Bytes
  cap : Nat
  deriving DecidableEq

/-- `&strings.Builder{}` -/
def Builder.empty : Builder := ⟨[], 0⟩

/-- `Builder.WriteString`/`Write`/`WriteByte`/`WriteRune`: `append`. -/
def Builder.append (g : Growth) (b : Builder) (p : Bytes) : Builder :=
  let need := b.buf.length + p.length
  ⟨b.buf ++ p, if need ≤ b.cap then b.cap else g.newCap b.cap need⟩

/-- `Builder.Grow(n)`: panics for `n < 0`; reallocates (to `2*cap + n` or more) only if the free room is below `n`. -/
def Builder.grow (g : Growth) (b : Builder) (n : Int) : Option Builder :=
  if n < 0 then none
  else if (b.cap : Int) - b.buf.length < n then some ⟨b.buf, g.newCap b.cap (2 * b.cap + n.toNat)⟩
  else some b

/-- stringjoiner.go:29-33 `joinerOptions` -/
structure Opts where
  pre : Bytes
  step : Bytes
  suf : Bytes
  deriving DecidableEq

/-- stringjoiner.go:22-26 `Joiner` (made by `NewJoiner`, so `opts` is never nil). -/
structure Joiner where
  b : Option Builder
  opts : Opts
  n : Int
  deriving DecidableEq

/-- stringjoiner.go:39-66: the four options. -/
inductive Option' where
  | step (s : Bytes)
  | pre (s : Bytes)
  | suf (s : Bytes)
  | all (p s x : Bytes)

/-- stringjoiner.go:39-66: applying one option. -/
def applyOpt (o : Opts) : Option' → Opts
  | .step s => { o with step := s }
  | .pre s => { o with pre := s }
  | .suf s => { o with suf := s }
  | .all p s x => { pre := p, step := s, suf := x }

/-- stringjoiner.go:69-84 `NewJoiner`, `loadOpts` -/
def newJoiner (os : List Option') : Joiner :=
  let op := os.foldl applyOpt ⟨[], [], []⟩
  { b := none, opts := op, n := (op.pre.length : Int) + op.suf.length }

/-- stringjoiner.go:132-138 `tryWriteStep` -/
def Joiner.tryWriteStep (g : Growth) (j : Joiner) : Builder :=
  match j.b with
  | none => Builder.empty
  | some b => b.append g j.opts.step

/-- stringjoiner.go:97-102 `WriteString` and 115-120 `Write`: the new joiner and the returned count. -/
def Joiner.write (g : Growth) (j : Joiner) (p : Bytes) : Joiner × Int :=
  ({ j with b := some ((j.tryWriteStep g).append g p) }, p.length)

/-- stringjoiner.go:88-93 `WriteRune` -/
def Joiner.writeRune (g : Growth) (j : Joiner) (r : Int) : Joiner × Int :=
  ({ j with b := some ((j.tryWriteStep g).append g (encodeRune r)) }, (encodeRune r).length)

/-- stringjoiner.go:106-111 `WriteByte` -/
def Joiner.writeByte (g : Growth) (j : Joiner) (c : UInt8) : Joiner :=
  { j with b := some ((j.tryWriteStep g).append g [c]) }

/-- The builder, a nil pointer standing for an empty one. -/
def orEmpty : Option Builder → Builder
  | none => Builder.empty
  | some b => b

/-- stringjoiner.go:123-130 `String` -/
def Joiner.string (j : Joiner) : Bytes :=
  j.opts.pre ++ (orEmpty j.b).buf ++ j.opts.suf

/-- stringjoiner.go:143-149 `Grow` -/
def Joiner.grow (g : Growth) (j : Joiner) (n : Int) : Option Joiner :=
  ((orEmpty j.b).grow g n).map (fun b' => { j with b := some b' })

/-- stringjoiner.go:154-160 `Cap` -/
def Joiner.cap (j : Joiner) : Int := match j.b with | none => j.n | some b => b.cap + j.n

/-- stringjoiner.go:163-167 `Reset` (`Builder.Reset` drops the buffer, so the capacity becomes 0) -/
def Joiner.reset (j : Joiner) : Joiner := match j.b with | none => j | some _ => { j with b := some ⟨[], 0⟩ }

/-- stringjoiner.go:170-176 `Len` -/
def Joiner.len (j : Joiner) : Int := match j.b with | none => j.n | some b => b.buf.length + j.n

/-- The mutating calls a user can make. -/
inductive Call where
  | writeRune (r : Int)
  | writeString (s : Bytes)
  | writeByte (c : UInt8)
  | write (p : Bytes)
  | grow (n : Int)
  | reset

/-- Effect of one call; `none` = panic. -/
def step (g : Growth) (j : Joiner) : Call → Option Joiner
  | .writeRune r => some (j.writeRune g r).1
  | .writeString s => some (j.write g s).1
  | .writeByte c => some (j.writeByte g c)
  | .write p => some (j.write g p).1
  | .grow n => j.grow g n
  | .reset => some j.reset

/-- A sequence of calls. -/
def run (g : Growth) (j : Joiner) : List Call → Option Joiner
  | [] => some j
  | c :: cs => (step g j c).bind (fun j' => run g j' cs)

end Verif.XString.Joiner

import Verif.XString.Joiner
/-!
# Model of `xerror/err.go`

A Go `error` interface value is nil or a non-nil value of an arbitrary type `E`, i.e. `Option E`; `msg` is its
`Error()` method.
-/
namespace Verif.XError
open Verif.Go Verif.XString.Joiner

variable {E : Type}

/-- err.go:25-27 `BatchError` -/
structure BatchError (E : Type) where
  errs : List E
  deriving DecidableEq, Repr

/-- The zero value `BatchError{}`. -/
def BatchError.zero : BatchError E := ⟨[]⟩

/-- err.go:33-37 `Add` -/
def BatchError.add (be : BatchError E) (err : Option E) : BatchError E :=
  match err with
  | some e => ⟨be.errs ++ [e]⟩
  | none => be

/-- What `Err` returns: nil, one of the added errors itself, or the `errorArray` value. -/
inductive Res (E : Type) where
  | nil
  | one (e : E)
  | array (es : List E)
  deriving DecidableEq, Repr

/-- err.go:40-49 `Err` -/
def BatchError.err (be : BatchError E) : Res E :=
  match be.errs with
  | [] => .nil
  | [e] => .one e
  | es => .array es

/-- err.go:52-54 `NotNil` -/
def BatchError.notNil (be : BatchError E) : Bool := decide (be.errs.length > 0)

/-- The loop of err.go:59-61 -/
def errorLoop (g : Growth) (msg : E → Bytes) (j : Joiner) : List E → Joiner
  | [] => j
  | e :: es => errorLoop g msg (j.write g (msg e)).1 es

/-- err.go:57-64 `errorArray.Error` -/
def errorArrayError (g : Growth) (msg : E → Bytes) (es : List E) : Bytes :=
  (errorLoop g msg (newJoiner [.step [10]]) es).string

/-- The message of what `Err` returns (nil has none). -/
def Res.message (g : Growth) (msg : E → Bytes) : Res E → Option Bytes
  | .nil => none
  | .one e => some (msg e)
  | .array es => some (errorArrayError g msg es)

/-- Adding errors one after the other. -/
def addAll (be : BatchError E) : List (Option E) → BatchError E
  | [] => be
  | e :: es => addAll (be.add e) es

end Verif.XError

import Verif.XStream.Spec
/-!
# Several readers of one stream

A `Stream` is a channel (xstream/xstream.go:73-75), and nothing keeps a program from calling several operations on the same `Stream`, or from making
several streams of one channel with `Range` (xstream/xstream.go:96-100). All of them then receive from the same channel. The group of these readers
is one component of a network: it has the channel as its only input.
-/
namespace Verif.XStream
open Verif.Conc.Net

variable {α K A L : Type}

/-- Go's receive, when `k` goroutines (or groups of goroutines) receive from the same channel: whichever is ready gets the next value, and
once the channel is closed and drained everybody sees its end. Reader `q` has an output channel, output `q` of the group, if `q < outs`.
The second part of the state says that the end has been seen by somebody; after that there are no more values. -/
def readersC (outs k : Nat) (C : Nat → Comp A L) : Comp A L where
  σ := ((q : Nat) → (C q).σ) × Bool
  nin := 1
  nout := outs
  init := (fun q => (C q).init, false)
  cap := fun s q => (C q).cap (s.1 q) 0
  step := fun s l s' => ∃ q < k, ∃ l' t, (C q).step (s.1 q) l' t ∧ s'.1 = Function.update s.1 q t ∧
    match l' with
    | .recv _ v => l = .recv 0 v ∧ s.2 = false ∧ s'.2 = false
    | .eof _ => s'.2 = true ∧ l = if s.2 then .tau else .eof 0
    | .send _ v => l = .send q v ∧ s'.2 = s.2
    | .close _ => l = .close q ∧ s'.2 = s.2
    | .log e => l = .log e ∧ s'.2 = s.2
    | .tau => l = .tau ∧ s'.2 = s.2
  done := fun s => ∀ q < k, (C q).done (s.1 q)

/-- The components of operations and terminal operations that read the same stream: first the operations, then the terminal ones. -/
def ReadersOf [DecidableEq K] (ops : List (Op α K)) (terms : List (Term α K)) (C : Nat → Comp (Val α) (Ev α K)) : Prop :=
  (∀ (q : Nat) (o : Op α K), ops[q]? = some o → o.build = some [C q]) ∧
  (∀ (q : Nat) (t : Term α K), terms[q]? = some t → C (ops.length + q) = t.comp)

/-- The pieces of a program in which streams may have several readers. -/
inductive SNode (α K : Type) where
  | node (nd : Node α K)
  /-- operations and terminal operations called on the same stream, or on streams made of the same channel -/
  | readers (ops : List (Op α K)) (terms : List (Term α K))

/-- The goroutines of a node. -/
def SNode.Builds [DecidableEq K] : SNode α K → Comp (Val α) (Ev α K) → Prop
  | .node nd, C => nd.Builds C
  | .readers ops terms, C => ∃ Cs, ReadersOf ops terms Cs ∧ C = readersC ops.length (ops.length + terms.length) Cs

/-- What a node does; several readers of one stream: every element goes to exactly one of them, each gets its share in the order of the
stream and does with it what it does with a stream of its own. -/
def SNode.Does [DecidableEq K] : SNode α K → (Nat → List (Val α)) → (Nat → List (Val α)) → List (Ev α K) → Prop
  | .node nd, ins, outs, log => nd.Does ins outs log
  | .readers ops terms, ins, outs, log => ∃ (share : Nat → List (Val α)) (logs : Nat → List (Ev α K)),
      Interleaving ((List.range (ops.length + terms.length)).map share) (ins 0) ∧
      Interleaving ((List.range (ops.length + terms.length)).map logs) log ∧
      (∀ (q : Nat) (o : Op α K), ops[q]? = some o → o.Does (share q) (outs q) (logs q)) ∧
      (∀ (q : Nat) (t : Term α K), terms[q]? = some t → t.Does (share (ops.length + q)) (logs (ops.length + q)))

/-- The parameters of the operations are in range. -/
def SNode.Valid [DecidableEq K] : SNode α K → Prop
  | .node nd => nd.Valid
  | .readers ops terms => (∀ o ∈ ops, o.Valid) ∧ 1 ≤ ops.length + terms.length

/-- A program some of whose streams may have several readers. -/
structure IsShared [DecidableEq K] (N : Net (Val α) (Ev α K)) (node : Nat → SNode α K) : Prop where
  wf : N.WF
  built : ∀ i < N.n, (node i).Builds (N.comp i)
  valid : ∀ i < N.n, (node i).Valid

end Verif.XStream

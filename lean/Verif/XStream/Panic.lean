import Verif.XStream.Model
/-!
# User functions that panic: Peek, Distinct, and the operations that run in the goroutine of the caller

The goroutines of `Peek` and `Distinct` run in the ants pool, which recovers the panic: the goroutine ends after its deferred
calls, the program goes on. `Foreach`, `ForeachOrdered`, `AnyMach`, `AllMach`, `Sort`, `Group` and the `Map` of the collector of `GroupBy` call
their functions in the goroutine of the caller, which gets the panic. (`Walk` and what is built on it, and `From`: see `Model.lean`.)
-/
namespace Verif.XStream
open Verif.Go Verif.Conc.Net

variable {α K : Type}

/-- What a goroutine without deferred calls does if its user function panics for the elements `bad`: it ends there (`none`). -/
def panickyNext {σ : Type} (bad : Val α → Bool) (next : σ → Cmd (Val α) (Ev α K) σ) : Option σ → Cmd (Val α) (Ev α K) (Option σ)
  | none => .done
  | some s =>
    match next s with
    | .recv p k => .recv p fun o => some (k o)
    | .send q v k => .send q v (some k)
    | .close q k => .close q (some k)
    | .log (.call v) k => if bad v then .log (.panic v) none else .log (.call v) (some k)
    | .log e k => .log e (some k)
    | .tau k => .tau (some k)
    | .done => .done

/-- A one goroutine operation whose user function panics for the elements `bad`. -/
def panicky (bad : Val α → Bool) (P : Seq (Val α) (Ev α K)) : Seq (Val α) (Ev α K) where
  σ := Option P.σ
  nin := P.nin
  nout := P.nout
  init := some P.init
  cap s q := match s with | some s => P.cap s q | none => 0
  next := panickyNext bad P.next

/-- xstream.go:589-600 `Peek` with a function that panics for the elements `bad`: `close(source)` (596) is not deferred. -/
def peekP (bad : Val α → Bool) : Seq (Val α) (Ev α K) := panicky bad peekS

/-- xstream.go:346-350 `Foreach` with a function that panics for the elements `bad`. -/
def foreachP (bad : Val α → Bool) : Seq (Val α) (Ev α K) := panicky bad foreachS

/-- xstream.go:525-555 `AnyMach` (`want = true`) and `AllMach` (`want = false`) with a predicate that panics for the elements `bad`: the goroutine
that drains the stream is started only when the loop is left by `return`. -/
def machP (bad : Val α → Bool) (want : Bool) (f : Val α → Bool) : Seq (Val α) (Ev α K) := panicky bad (machS want f)

/-- xstream.go:353-362 `ForeachOrdered` with a function that panics for the elements `bad`. -/
def orderedP (bad : Val α → Bool) : Seq (Val α) (Ev α K) := panicky bad orderedS

/-- Points of `Group.Map` (collection.go:37-47) with a key function that can panic. -/
inductive KeyedSt (α K : Type) where
  | loop (groups : GMap K (List (Val α)))
  /-- `f(item)` or the use of the map panics -/
  | panicking (v : Val α)
  | ret (groups : GMap K (List (Val α)))
  | done

/-- collection.go:38-46; `f v = none` if the key function panics for `v`, or returns a key that cannot be a map key. The loop of `Stream.Group`,
xstream.go:467-471, is the same. -/
def keyedNext [DecidableEq K] (f : Val α → Option K) : KeyedSt α K → Cmd (Val α) (Ev α K) (KeyedSt α K)
  | .loop m => .recv 0 fun
    | some v =>
      match f v with
      | none => .panicking v
      | some k => .loop (GMap.set m k ((GMap.get m k).getD [] ++ [v]))
    | none => .ret m
  | .panicking v => .log (.panic v) .done
  | .ret m => .log (.ret (.groups m)) .done
  | .done => .done

/-- collection.go:37-47: the first `Map` of the collector of `GroupBy(f)`, with a key function that may panic. -/
def keyedP [DecidableEq K] (f : Val α → Option K) : Seq (Val α) (Ev α K) :=
  ⟨KeyedSt α K, 1, 0, .loop [], fun _ _ => 0, keyedNext f⟩

/-- Points of `Sort` (xstream.go:242-252) with a comparison that can panic. -/
inductive SortPSt (α : Type) where
  | loop (items : List (Val α))
  /-- the comparison has panicked inside `sort.Slice` (247-249) -/
  | panicking
  | done

/-- xstream.go:242-249 `Sort` with a comparison that panics for some pair of the elements: the whole stream has been received before the first
comparison; no stream is returned. The value of the panic is left out. -/
def sortPNext : SortPSt α → Cmd (Val α) (Ev α K) (SortPSt α)
  | .loop items => .recv 0 fun | some v => .loop (items ++ [v]) | none => .panicking
  | .panicking => .log (.panic .nil) .done
  | .done => .done

/-- xstream.go:242-252 `Sort` with a comparison that panics. -/
def sortP : Seq (Val α) (Ev α K) := ⟨SortPSt α, 1, 0, .loop [], fun _ _ => 0, sortPNext⟩

/-- collection.go:40-43: the loop of `Group.Map`: the map so far, whether the key function has panicked, and what is left in the channel. -/
def groupLoopP [DecidableEq K] (f : Val α → Option K) : GMap K (List (Val α)) → List (Val α) → GMap K (List (Val α)) × Bool × List (Val α)
  | m, [] => (m, false, [])
  | m, v :: vs =>
    match f v with
    | none => (m, true, vs)
    | some k => groupLoopP f (GMap.set m k ((GMap.get m k).getD [] ++ [v])) vs

/-- collection.go:37-47 `Map` with a key function that may panic, when `items` is what the channel still delivers until it ends: `g.groups` is
set before the loop (39). The result is `none` if the call panics; also what is left in the channel. -/
def GroupC.mapP [DecidableEq K] (f : Val α → Option K) (g : GroupC α K) (items : List (Val α)) :
    GroupC α K × Option (GMap K (List (Val α))) × List (Val α) :=
  match g.groups with
  | none =>
    match groupLoopP f [] items with
    | (m, true, rest) => (⟨some m⟩, none, rest)
    | (m, false, rest) => (⟨some m⟩, some m, rest)
  | some m => (g, some m, items)

/-- Points of the goroutine of `Distinct` (xstream.go:138-149) with a key function that can panic. -/
inductive DistinctPSt (α K : Type) where
  | loop (unique : List K)
  | send (v : Val α) (k : K) (unique : List K)
  /-- `f(item)` or the use of the map panics -/
  | panicking (v : Val α)
  /-- the deferred `close(source)` (139) -/
  | closing
  | done

/-- xstream.go:138-149; `f v = none` if the key function panics for `v`, or returns a key that cannot be a map key. -/
def distinctPNext [DecidableEq K] (f : Val α → Option K) : DistinctPSt α K → Cmd (Val α) (Ev α K) (DistinctPSt α K)
  | .loop u => .recv 0 fun
    | some v =>
      match f v with
      | none => .panicking v
      | some k => if k ∈ u then .loop u else .send v k u
    | none => .closing
  | .send v k u => .send 0 v (.loop (k :: u))
  | .panicking v => .log (.panic v) .closing
  | .closing => .close 0 .done
  | .done => .done

/-- xstream.go:135-151 `Distinct` with a key function that may panic. -/
def distinctP [DecidableEq K] (f : Val α → Option K) : Seq (Val α) (Ev α K) :=
  ⟨DistinctPSt α K, 1, 1, .loop [], fun _ _ => 0, distinctPNext f⟩

/-- The pieces of a program some of whose functions panic. -/
inductive PNode (α K : Type) where
  | node (nd : Node α K)
  | peek (bad : Val α → Bool)
  | distinct (f : Val α → Option K)
  | foreach (bad : Val α → Bool)
  | mach (bad : Val α → Bool) (want : Bool) (f : Val α → Bool)
  | ordered (bad : Val α → Bool)
  | keyed (f : Val α → Option K)
  | sort

/-- The component that runs it. -/
def PNode.Builds [DecidableEq K] : PNode α K → Comp (Val α) (Ev α K) → Prop
  | .node nd, C => nd.Builds C
  | .peek bad, C => C = (peekP bad).comp
  | .distinct f, C => C = (distinctP f).comp
  | .foreach bad, C => C = (foreachP bad).comp
  | .mach bad want f, C => C = (machP bad want f).comp
  | .ordered bad, C => C = (orderedP bad).comp
  | .keyed f, C => C = (keyedP f).comp
  | .sort, C => C = sortP.comp

/-- From(items).Peek(…).Foreach(…), where the function of Peek panics for `bad`. -/
def peekProgram [DecidableEq K] (src : Source α) (bad : Val α → Bool) : Net (Val α) (Ev α K) :=
  pipe [src.comp, (peekP bad).comp, Term.foreach.comp]

/-- From(items).Distinct(f).Foreach(…). -/
def distinctProgram [DecidableEq K] (src : Source α) (f : Val α → Option K) : Net (Val α) (Ev α K) :=
  pipe [src.comp, (distinctP f).comp, Term.foreach.comp]

/-- From(items).Foreach(…), where the function of Foreach panics for `bad`. -/
def foreachProgram (src : Source α) (bad : Val α → Bool) : Net (Val α) (Ev α K) :=
  pipe [src.comp, (foreachP bad).comp]

/-- The operations with panicking functions that run in the goroutine of the caller, behind a source. -/
inductive PTerm (α K : Type) where
  /-- AnyMach (`want = true`), AllMach (`want = false`) -/
  | mach (bad : Val α → Bool) (want : Bool) (f : Val α → Bool)
  | ordered (bad : Val α → Bool)
  /-- GroupBy … Map, and Group -/
  | keyed (f : Val α → Option K)
  | sort

/-- Such an operation as a node of a program. -/
def PTerm.node : PTerm α K → PNode α K
  | .mach bad want f => .mach bad want f
  | .ordered bad => .ordered bad
  | .keyed f => .keyed f
  | .sort => .sort

/-- The goroutine that calls such an operation. -/
def PTerm.seq [DecidableEq K] : PTerm α K → Seq (Val α) (Ev α K)
  | .mach bad want f => machP bad want f
  | .ordered bad => orderedP bad
  | .keyed f => keyedP f
  | .sort => sortP

/-- From(items) and one of these operations. -/
def termProgram [DecidableEq K] (src : Source α) (t : PTerm α K) : Net (Val α) (Ev α K) :=
  pipe [src.comp, t.seq.comp]

end Verif.XStream

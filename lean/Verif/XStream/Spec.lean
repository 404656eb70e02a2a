import Verif.XStream.Model
/-!
# Specification of the stream operations as operations on lists

Nothing here mentions goroutines or channels.
-/
namespace Verif.XStream
open Verif.Go

variable {α K A : Type}

/-- The first element for every key, in order. -/
def firstPerKey [DecidableEq K] (f : A → K) : List A → List A
  | [] => []
  | x :: xs => x :: (firstPerKey f xs).filter fun y => f y ≠ f x

/-- Consecutive chunks of `n` elements; the last one may be shorter. -/
def chunks (n : Nat) : List A → List (List A)
  | [] => []
  | x :: xs => if n = 0 then [] else (x :: xs).take n :: chunks n ((x :: xs).drop n)
termination_by l => l.length
decreasing_by simp; omega

/-- The last `n` elements. -/
def lastN (n : Nat) (l : List A) : List A := l.drop (l.length - n)

/-- `out` consists of all elements of the given lists, and the elements of each list appear in their order. -/
inductive Interleaving : List (List A) → List A → Prop where
  | nil (ls : List (List A)) : (∀ l ∈ ls, l = []) → Interleaving ls []
  | cons (l₁ : List (List A)) (x : A) (r : List A) (l₂ : List (List A)) (out : List A) :
      Interleaving (l₁ ++ r :: l₂) out → Interleaving (l₁ ++ (x :: r) :: l₂) (x :: out)

/-- `g` is the partition of `xs` into groups by key. -/
def IsGrouping (f : A → K) (xs : List A) [DecidableEq K] (g : GMap K (List A)) : Prop :=
  GMap.WF g ∧ (∀ k l, (k, l) ∈ g ↔ l = xs.filter (fun x => f x = k) ∧ l ≠ [])

/-- The elements up to and including the first that satisfies `p`. -/
def upTo (p : A → Bool) : List A → List A
  | [] => []
  | x :: xs => if p x then [x] else x :: upTo p xs

example : firstPerKey (· % 3) [1, 4, 2, 7, 3, 5] = [1, 2, 3] := by decide
example : chunks 2 [1, 2, 3, 4, 5] = [[1, 2], [3, 4], [5]] := by simp [chunks]
example : lastN 2 [1, 2, 3] = [2, 3] := by decide
example : Interleaving [[1, 2], [3]] [1, 3, 2] :=
  .cons [] 1 [2] [[3]] _ (.cons [[2]] 3 [] [] _ (.cons [] 2 [] [[]] _ (.nil _ (by simp))))
example : upTo (· = 2) [1, 2, 3, 2] = [1, 2] := by decide

/-- The elements the user function was called with, in order. -/
def calls : List (Ev α K) → List (Val α)
  | [] => []
  | .call v :: l => v :: calls l
  | _ :: l => calls l

/-- The elements for which the call of the user function has ended, in order, and whether it ended by a panic. -/
def endings : List (Ev α K) → List (Val α × Bool)
  | [] => []
  | .finish v :: l => (v, false) :: endings l
  | .panic v :: l => (v, true) :: endings l
  | _ :: l => endings l

/-- How the call for an element ends. -/
def Body.ending (b : Body α) (v : Val α) : Ev α K := if b.panics then .panic v else .finish v

/-- What Walk with work size `size` does, whether or not the function panics for some elements: it calls the function once for every
element, every call ends, and the output is an interleaving of the outputs of the calls; with one worker the calls and the outputs are in
the order of the stream. -/
structure WalkSpec (size : Nat) (f : Val α → Body α) (xs ys : List (Val α)) (log : List (Ev α K)) : Prop where
  called : (calls log).Perm xs
  ended : (endings log).Perm (xs.map fun v => (v, (f v).panics))
  output : Interleaving (xs.map fun v => (f v).sends) ys
  inOrder : size = 1 → ys = xs.flatMap (fun v => (f v).sends) ∧ log = xs.flatMap fun v => [.call v, (f v).ending v]

/-- What is sent for an element by Filter(fn), Map(fn) and FlatMap(fn), where `fn v = none` means that `fn` panics for `v`. FlatMap of a
slice stops at the first element for which `fn` panics. -/
def Filter.body (fn : Val α → Option Bool) (v : Val α) : Body α := ⟨if fn v = some true then [v] else [], (fn v).isNone⟩
/-- Specification: what `Map` does with one element; `none`: its function panics. -/
def Map.body (fn : Val α → Option (Val α)) (v : Val α) : Body α := ⟨(fn v).toList, (fn v).isNone⟩
/-- Specification: what `FlatMap` does with one element. -/
def FlatMap.body (fn : Val α → Option (Val α)) : Val α → Body α
  | .slice l => ⟨((l.map fn).takeWhile Option.isSome).filterMap id, l.any fun x => (fn x).isNone⟩
  | .nil => ⟨[], false⟩
  | v => Map.body fn v

/-- A strict weak order. -/
structure StrictWeakOrder (less : A → A → Bool) : Prop where
  irrefl : ∀ a, less a a = false
  trans : ∀ a b c, less a b = true → less b c = true → less a c = true
  incomp : ∀ a b c, less a b = false → less b a = false → less b c = false → less c b = false → less a c = false ∧ less c a = false

/-- The contract of Go's `sort.Slice`: it permutes the slice, and if `less` is a strict weak order, no element is less than one before it. -/
def SortSlice (sortSlice : (A → A → Bool) → List A → List A) : Prop :=
  ∀ less l, (sortSlice less l).Perm l ∧ (StrictWeakOrder less → (sortSlice less l).Pairwise fun a b => less b a = false)

/-- What an operation makes of the stream `xs`: the stream `ys`, and the events `log`. -/
def Op.Does [DecidableEq K] : Op α K → List (Val α) → List (Val α) → List (Ev α K) → Prop
  | .buffer _, xs, ys, log => ys = xs ∧ log = []
  | .peek, xs, ys, log => ys = xs ∧ log = xs.map .call
  | .distinct f, xs, ys, log => ys = firstPerKey f xs ∧ log = []
  | .split n, xs, ys, log => ys = (chunks n.toNat xs).map .slice ∧ log = []
  | .splitSteam n, xs, ys, log => ys = (chunks n.toNat xs).map .stream ∧ log = (List.range (chunks n.toNat xs).length).map .closeChunk
  | .skip n, xs, ys, log => ys = xs.drop n.toNat ∧ log = []
  | .limit n, xs, ys, log => ys = xs.take n.toNat ∧ log = []
  | .tail n, xs, ys, log => ys = lastN n.toNat xs ∧ log = []
  | .merge, xs, ys, log => ys = [.slice xs] ∧ log = []
  | .reverse, xs, ys, log => ys = xs.reverse ∧ log = []
  | .sort _ less, xs, ys, log => ys.Perm xs ∧ (StrictWeakOrder less → ys.Pairwise fun a b => less b a = false) ∧ log = []
  | .group f _, xs, ys, log => (∃ g, IsGrouping f xs g ∧ ys = g.map fun p => .slice p.2) ∧ log = []
  | .walk f opts, xs, ys, log => WalkSpec (loadOptions opts).toNat f xs ys log
  | .filter fn opts, xs, ys, log => WalkSpec (loadOptions opts).toNat (Filter.body fn) xs ys log
  | .map fn opts, xs, ys, log => WalkSpec (loadOptions opts).toNat (Map.body fn) xs ys log
  | .flatMap fn opts, xs, ys, log => WalkSpec (loadOptions opts).toNat (FlatMap.body fn) xs ys log

/-- What a chain of operations makes of the stream `xs`, where `logs` are the events of the operations. -/
inductive OpsDo [DecidableEq K] : List (Op α K) → List (Val α) → List (Val α) → List (List (Ev α K)) → Prop where
  | nil (xs : List (Val α)) : OpsDo [] xs xs []
  | cons {op : Op α K} {ops : List (Op α K)} {xs ys zs : List (Val α)} {log : List (Ev α K)} {logs : List (List (Ev α K))} :
      op.Does xs ys log → OpsDo ops ys zs logs → OpsDo (op :: ops) xs zs (log :: logs)

/-- What a terminal operation does with the stream `xs`. -/
def Term.Does [DecidableEq K] : Term α K → List (Val α) → List (Ev α K) → Prop
  | .foreach, xs, log => log = xs.map .call ++ [.ret .unit]
  | .done, _, log => log = [.ret .unit]
  | .foreachOrdered, xs, log => log = xs.reverse.map .call ++ [.ret .unit]
  | .count, xs, log => log = [.ret (.int xs.length)]
  | .anyMach f, xs, log => log = (upTo f xs).map .call ++ [.ret (.bool (xs.any f))]
  | .allMach f, xs, log => log = (upTo (fun x => !f x) xs).map .call ++ [.ret (.bool (xs.all f))]
  | .findFirst, xs, log => log = [.ret (match xs.head? with | some v => .elem v | none => .noElement)]
  | .findLast, xs, log => log = [.ret (match xs.getLast? with | some v => .elem v | none => .noElement)]
  | .groupBy f, xs, log => ∃ g, IsGrouping f xs g ∧ log = [.ret (.groups g)]

/-- What a node does: `ins p` is the sequence received from input `p`, `outs q` the sequence sent to output `q`. -/
def Node.Does [DecidableEq K] : Node α K → (Nat → List (Val α)) → (Nat → List (Val α)) → List (Ev α K) → Prop
  | .source s, _, outs, log => outs 0 = s.items ∧ log = []
  | .op o, ins, outs, log => o.Does (ins 0) (outs 0) log
  | .concat n, ins, outs, log => Interleaving ((List.range n).map ins) (outs 0) ∧ log = []
  | .copy channels, ins, outs, log => (∀ q < channels.length, outs q = ins 0) ∧ log = []
  | .mapStream items f opts, _, outs, log => Interleaving (items.map f) (outs 0) ∧
      (XMapReduce.loadOption opts = 1 → outs 0 = items.flatMap f) ∧ log = []
  | .mapStreamCtx items f opts, _, outs, log => (∃ ls, List.Forall₂ (· <+: ·) ls (items.map f) ∧ Interleaving ls (outs 0)) ∧
      (XMapReduce.loadOption opts = 1 → outs 0 <+: items.flatMap f) ∧ log = []
  | .term t, ins, _, log => t.Does (ins 0) log

/-- The assumptions about what the model leaves open: Go's `int` is 64 bits wide, `sort.Slice` sorts, and
iterating over a map visits each entry once. -/
def Op.Valid [DecidableEq K] : Op α K → Prop
  | .buffer n | .split n | .splitSteam n | .skip n | .limit n | .tail n => n < 2 ^ 63
  | .sort sortSlice _ => SortSlice sortSlice
  | .group _ order => ∀ g, (order g).Perm g
  | _ => True

/-- `MapStream` needs at least one worker (with none, no mapping is ever started; a negative number panics). -/
def Node.Valid [DecidableEq K] : Node α K → Prop
  | .op o => o.Valid
  | .mapStream _ _ opts | .mapStreamCtx _ _ opts => 1 ≤ XMapReduce.loadOption opts
  | _ => True

end Verif.XStream

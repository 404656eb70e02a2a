import Verif.XRing.Model
/-!
# Specification of the ring, independent of the implementation: a plain log of added values
-/
namespace Verif.XRing

variable {α : Type}

/-- The last `n` elements of `log` (all of them if there are fewer), oldest first. -/
def lastN (n : Nat) (log : List α) : List α := log.drop (log.length - n)

/-- What the `Take` calls of a history must return on a ring of capacity `n`, given the log so far. -/
def specRun (n : Nat) (log : List α) : List (Call α) → List (List α)
  | [] => []
  | .add v :: cs => specRun n (log ++ [v]) cs
  | .take :: cs => lastN n log :: specRun n log cs

/-- Number of additions in a history. -/
def countAdds : List (Call α) → Nat
  | [] => 0
  | .add _ :: cs => countAdds cs + 1
  | .take :: cs => countAdds cs

example : lastN 2 [1, 2, 3] = [2, 3] := by decide
example : lastN 5 [1, 2, 3] = [1, 2, 3] := by decide

end Verif.XRing

import Verif.XSync.MapConcChoice
import Verif.XSync.ResMan
import Verif.XSync.ResManMem
import Verif.XSync.ResManNest
/-!
# What `ResourceManager` leaves open in its models

`Close` of a manager may go on with any of the resources that are left (resourcemanager.go:44): no order is lost in the models.
-/
namespace Verif.XSync
open Verif.Conc

variable {K E : Type} [DecidableEq K]

/-- `Close` may go on with any resource that is left, and then has the others left (resourcemanager.go:44-49), in the model of `ResMan.lean`. -/
theorem close_any (cerr : Nat → Option E) (g : ResMan.G K E) (i : Nat) {todo : List (K × Nat)} (be : XError.BatchError E) {x : K × Nat} (h : x ∈ todo) :
    ∃ c rest g', todo.Perm (x :: rest) ∧ (ResMan.prog cerr).step g i .close (.closing todo be) c = some (g', .inl (.closing rest (be.add (cerr x.2)))) ∧
      g'.log = g.log ++ [.closed x.2] := by
  obtain ⟨c, h1, h2⟩ := MapConc.pick h
  cases todo with
  | nil => simp at h
  | cons y ys =>
    refine ⟨c, _, { g with log := g.log ++ [.closed x.2], closedBy := upd g.closedBy i (g.closedBy i ++ [x.2]) }, h2, ?_, rfl⟩
    simp only [ResMan.prog, ResMan.closeStep, h1]

/-- The same in the model of `ResManMem.lean`: any resource that was not yet visited. -/
theorem close_any_mem (cerr : Nat → Option E) (M : ResManMem.Mem K E) (i : Nat) (seen : List K) (be : XError.BatchError E) {x : K × Nat}
    (h : x ∈ ResManMem.rest M.map seen) :
    ∃ c, (ResManMem.prog cerr).step M i .close (.clNext seen be) c = some (M, .inl (.clCall x seen be)) := by
  obtain ⟨c, h1, -⟩ := MapConc.pick h
  refine ⟨c, ?_⟩
  simp only [ResManMem.prog, ResManMem.closeStep]
  split
  · rename_i e; rw [e] at h; simp at h
  · rw [h1]

/-- The same in the model of `ResManNest.lean`. -/
theorem close_any_nest (clm : Nat → ResManNest.Tree K E) (g : ResManNest.G K E) (i : Nat) (op : ResManNest.Op K E) {todo : List (K × Nat)} {x : K × Nat} (h : x ∈ todo) :
    ∃ c rest, todo.Perm (x :: rest) ∧ (ResManNest.prog clm).step g i op (.closing todo) c = some (g, .inl (.method rest (clm x.2))) := by
  obtain ⟨c, h1, h2⟩ := MapConc.pick h
  cases todo with
  | nil => simp at h
  | cons y ys =>
    refine ⟨c, _, h2, ?_⟩
    simp only [List.length_cons] at h1 ⊢
    simp only [ResManNest.prog, ResManNest.step, h1]

theorem MapConc.picked {α : Type} {l : List α} {c : Nat} {x : α} (h : l[c % l.length]? = some x) : l.Perm (x :: l.eraseIdx (c % l.length)) := by
  obtain ⟨hc, rfl⟩ := List.getElem?_eq_some_iff.mp h
  exact (List.getElem_cons_eraseIdx_perm hc).symm

/-- With nested calls `Close` goes on with one of the resources that are left, calls its `Close` method, and has exactly the others left; it returns
only if none is left. -/
theorem close_only_nest (clm : Nat → ResManNest.Tree K E) (g g' : ResManNest.G K E) (i c : Nat) (op : ResManNest.Op K E) {todo : List (K × Nat)}
    {s' : ResManNest.Pt K E ⊕ ResManNest.Res E} (h : (ResManNest.prog clm).step g i op (.closing todo) c = some (g', s')) :
    (todo = [] ∧ s' = .inr .closed) ∨ ∃ x rest, todo.Perm (x :: rest) ∧ g' = g ∧ s' = .inl (.method rest (clm x.2)) := by
  cases todo with
  | nil =>
    simp only [ResManNest.prog, ResManNest.step, Option.some.injEq, Prod.mk.injEq] at h
    exact .inl ⟨rfl, h.2.symm⟩
  | cons y ys =>
    right
    simp only [ResManNest.prog, ResManNest.step] at h
    split at h
    · simp at h
    · rename_i x hx
      simp only [Option.some.injEq, Prod.mk.injEq] at h
      exact ⟨x, _, MapConc.picked (l := y :: ys) hx, h.1.symm, h.2.symm⟩

end Verif.XSync

import Verif.XSync.MapConc
/-!
# What `Map` leaves open in `MapConc.lean`

User functions may give any of their results in any call, and the iterations over Go maps (map.go:471, 500) may go on with any of the entries that are
left: no behaviour of the functions or of the iterations is lost in the model.
-/
namespace Verif.XSync.MapConc
open Verif.Go Verif.Conc

variable {K V : Type} [DecidableEq K] [DecidableEq V]

/-- The function of `ComputeIfAbsent` may have any of its results (map.go:294-295, 314). -/
theorem absent_any (g : G K V) (i : Nat) (k : K) (f : K → Nat → V) (n : Nat) :
    (∃ c g', step g i (.computeIfAbsent k f) .addCall c = some (g', .inl (.add (f k n)))) ∧
    ∀ m e p, ∃ c g', step g i (.computeIfAbsent k f) (.call m e p) c = some (g', .inl (.cas m e p (f k n, none))) :=
  ⟨⟨n, _, rfl⟩, fun _ _ _ => ⟨n, _, rfl⟩⟩

/-- The function of `ComputeIfPresent` may have any of its results (map.go:367). -/
theorem present_any (g : G K V) (i : Nat) (k : K) (f : K → V → Nat → V) (n : Nat) (m : Mode) (e j : Nat) (w : V) :
    ∃ c g', step g i (.computeIfPresent k f) (.call m e (.cell j w)) c = some (g', .inl (.cas m e (.cell j w) (f k w n, some w))) :=
  ⟨n, _, rfl⟩

/-- The function of `Range` may have any of its results (map.go:476-478). -/
theorem range_any (g : G K V) (i : Nat) (f : K → V → Nat → Bool) (todo : List (K × Nat)) (vis : List (K × V)) (k : K) (v : V) (n : Nat) :
    ∃ c, step g i (.range f) (.icall todo vis k v) c =
      some (g, if f k v n then .inl (.iter todo (vis ++ [(k, v)])) else .inr (.visited (vis ++ [(k, v)]) false)) :=
  ⟨n, rfl⟩

theorem pick {α : Type} {l : List α} {x : α} (h : x ∈ l) : ∃ c, l[c % l.length]? = some x ∧ l.Perm (x :: l.eraseIdx (c % l.length)) := by
  obtain ⟨c, hc, rfl⟩ := List.getElem_of_mem h
  refine ⟨c, ?_, ?_⟩
  · rw [Nat.mod_eq_of_lt hc, List.getElem?_eq_getElem hc]
  · rw [Nat.mod_eq_of_lt hc]; exact (List.getElem_cons_eraseIdx_perm hc).symm

/-- The iteration of `Range` may go on with any entry that is left, and then has the others left (map.go:471-475). -/
theorem iter_any (g : G K V) (i : Nat) (op : Op K V) {todo : List (K × Nat)} (vis : List (K × V)) {x : K × Nat} (h : x ∈ todo) :
    ∃ c rest, todo.Perm (x :: rest) ∧ step g i op (.iter todo vis) c = some (g, match g.p x.2 with
      | .cell _ v => .inl (.icall rest vis x.1 v)
      | _ => .inl (.iter rest vis)) := by
  obtain ⟨c, h1, h2⟩ := pick h
  refine ⟨c, _, h2, ?_⟩
  cases todo with
  | nil => simp at h
  | cons y ys =>
    simp only [step, h1]
    cases g.p x.2 <;> rfl

/-- The iteration of `dirtyLocked` may go on with any entry that is left, and then has the others left (map.go:500-503). -/
theorem build_any (g : G K V) (i : Nat) (op : Op K V) (rm : List (K × Nat)) {todo : List (K × Nat)} {x : K × Nat} (h : x ∈ todo) :
    ∃ c rest, todo.Perm (x :: rest) ∧ step g i op (.build rm todo) c = some (g, .inl (.buildE rm rest x.1 x.2)) := by
  obtain ⟨c, h1, h2⟩ := pick h
  refine ⟨c, _, h2, ?_⟩
  cases todo with
  | nil => simp at h
  | cons y ys => simp only [step, h1]

end Verif.XSync.MapConc

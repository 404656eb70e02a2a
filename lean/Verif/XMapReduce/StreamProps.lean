import Verif.XStream.Room
/-!
# Programs that start with `MapStream` (C103)

`MapStream` is one of the nodes of which programs consist (`Verif.XStream.Node`), so that all theorems about programs hold for programs with
it too (C43 to C54, C90). Here: what such a program computes, from the generator to the result.
-/
namespace Verif.XMapReduce
open Verif.Go Verif.XStream Verif.Conc.Net

variable {α K β : Type} [DecidableEq K]

theorem map_shape {items : List β} {f : β → List (Val α)} {size : Nat} :
    (mapC items f size : Comp (Val α) (Ev α K)).nin = 0 ∧ (mapC items f size : Comp (Val α) (Ev α K)).nout = 1 := ⟨rfl, rfl⟩

section
variable {N : Net (Val α) (Ev α K)} {node : Nat → Node α K}

/-- C103: a stream from `MapStream`, anywhere in a program: the output, when everything has ended, is an interleaving of what the mapping
writes for the items, and in the order of the items if there is one worker. -/
theorem C103_node (hp : IsProgram N node) (hf : FewValues N) {m : NState N} (hr : NReach N m) (hend : ∀ m', ¬ NStep m m') {i : Nat} (hi : i < N.n)
    {items : List β} {f : β → List (Val α)} {sizes : List Int} (ho : node i = .mapStream items f sizes) :
    Interleaving (items.map f) ((m.hist i).outs 0) ∧ (loadOption sizes = 1 → (m.hist i).outs 0 = items.flatMap f) := by
  have h := C43_nodes hp hf hr hend hi
  rw [ho] at h
  exact ⟨h.1, h.2.1⟩

variable {items : List β} {f : β → List (Val α)} {sizes : List Int} {ops : List (Op α K)} {term : Term α K}

theorem map_program (h : mapProgram items f sizes ops term = some N) :
    ¬ loadOption sizes < 0 ∧ programFrom (mapC items f (loadOption sizes).toNat) ops term = some N := by
  unfold mapProgram at h
  split at h
  · simp at h
  · exact ⟨by assumption, h⟩

theorem map_is (h : mapProgram items f sizes ops term = some N) (h1 : 1 ≤ loadOption sizes) (hv : ∀ o ∈ ops, o.Valid) :
    IsProgram N (chainNodes (.mapStream items f sizes) (stages ops) term) ∧ N.n = (stages ops).length + 2 :=
  from_is (n₀ := .mapStream items f sizes) rfl h1 map_shape (map_program h).2 hv

theorem map_few (h : mapProgram items f sizes ops term = some N) (h1 : 1 ≤ loadOption sizes) (hv : ∀ o ∈ ops, o.Valid) {b : Nat} (hb : 1 ≤ b) (he : ∀ o ∈ ops, o.Emits b)
    (hlt : max 1 (items.flatMap f).length * b ^ ops.length < 2 ^ 63) : FewValues N :=
  from_few (n₀ := .mapStream items f sizes) rfl h1 map_shape (fun _ _ hr => map_bound hr) (map_program h).2 hv hb he hlt

/-- C103: a program that starts with `MapStream` never panics, every execution of it is finite, it can stop only when all its goroutines have
ended (those of the generator, of `doMap`, of the workers and of the mappings included), and then it has done to some interleaving of
what the mapping writes for the items what its operations do to lists. -/
theorem C103_program (h : mapProgram items f sizes ops term = some N) (h1 : 1 ≤ loadOption sizes) (hv : ∀ o ∈ ops, o.Valid) (hf : FewValues N) :
    (∀ m, NReach N m → m.crashed = false) ∧
    (∀ e : Nat → NState N, NReach N (e 0) → ¬ ∀ k, NStep (e k) (e (k + 1))) ∧
    ∀ m, NReach N m → (∀ m', ¬ NStep m m') → (∀ i < N.n, (N.comp i).done (m.st i)) ∧
      ∃ xs zs logs, Interleaving (items.map f) xs ∧ (loadOption sizes = 1 → xs = items.flatMap f) ∧ OpsDo ops xs zs logs ∧
        term.Does zs (m.hist (N.n - 1)).log ∧ logs.flatten = (List.range (N.n - 2)).flatMap fun j => (m.hist (j + 1)).log := by
  have hp := (map_is h h1 hv).1
  refine ⟨fun m hr => (C44_close_once hp hf hr).1, (C45_no_deadlock hp hf).2.1, fun m hr hend => ?_⟩
  have hd := (C45_no_deadlock hp hf).1 m hr hend
  obtain ⟨zs, logs, h2, h3⟩ := from_result (n₀ := .mapStream items f sizes) rfl h1 map_shape (map_program h).2 hv hf hr hd
  exact ⟨hd, _, zs, logs, h2.1, h2.2.1, h3⟩

/-- C103: the call of `MapStream` itself panics exactly for a negative worker size. -/
theorem C103_panics (items : List β) (f : β → List (Val α)) (sizes : List Int) (ops : List (Op α K)) (term : Term α K) :
    mapProgram items f sizes ops term = none ↔ loadOption sizes < 0 ∨ ∃ o ∈ ops, o.Panics := by
  have := C83_panics (.of []) ops term
  unfold program at this
  unfold mapProgram
  split
  · simp [*]
  · rename_i hn
    simp only [Option.map_eq_none_iff] at this ⊢
    rw [this]
    simp [hn]
end

/-! ### MapStream(1, 2, 3; write x and 10 * x) with two workers, Map(add one), ForeachOrdered -/

/-- For the concrete cases beside the theorems. -/
def mapOps : List (Op Nat Nat) := [.map (fun v => some (.atom (num v + 1))) [.workSize 3]]

/-- For the concrete cases beside the theorems. -/
def mapNet : Net (Val Nat) (Ev Nat Nat) :=
  (mapProgram [1, 2, 3] (fun x : Nat => [.atom x, .atom (10 * x)]) [4, 2] mapOps .foreachOrdered).get (by rfl)

theorem mapNet_program : mapProgram [1, 2, 3] (fun x : Nat => [.atom x, .atom (10 * x)]) [4, 2] mapOps .foreachOrdered = some mapNet := rfl

theorem mapOps_valid : ∀ o ∈ mapOps, o.Valid := by
  intro o ho
  simp only [mapOps, List.mem_cons, List.not_mem_nil, or_false] at ho
  subst ho; trivial

theorem mapNet_few : FewValues mapNet := map_few (b := 1) mapNet_program (by decide) mapOps_valid (by omega) (by
    intro o ho
    simp only [mapOps, List.mem_cons, List.not_mem_nil, or_false] at ho
    subst ho; trivial) (by simp [mapOps])

theorem mapNet_is : IsProgram mapNet (chainNodes (.mapStream [1, 2, 3] (fun x : Nat => [.atom x, .atom (10 * x)]) [4, 2]) mapOps .foreachOrdered) :=
  (map_is mapNet_program (by decide) mapOps_valid).1

example := (ends mapNet_is mapNet_few).imp fun _ h => C103_node mapNet_is mapNet_few h.1 h.2 (i := 0) (by decide) rfl

example := (ends mapNet_is mapNet_few).imp fun m h => (C103_program mapNet_program (by decide) mapOps_valid mapNet_few).2.2 m h.1 h.2

/-- Six elements are seen in the end, whatever the schedule. -/
example : ∃ m : NState mapNet, NReach mapNet m ∧ ((m.hist 0).outs 0).length = 6 := by
  obtain ⟨m, h1, h2⟩ := ends mapNet_is mapNet_few
  exact ⟨m, h1, (C103_node mapNet_is mapNet_few h1 h2 (i := 0) (by decide) rfl).1.perm.length_eq⟩

example : mapProgram [1] (fun x : Nat => [.atom x]) [4, -2] mapOps .done = none := by rw [C103_panics]; exact .inl (by decide)

end Verif.XMapReduce

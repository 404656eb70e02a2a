import Verif.XSync.MapCrash
/-!
# C124 for `xsync.Map`: user functions that panic

`(progP U).mach.Exec m H` are the executions in which the functions given to `Range`, `ComputeIfAbsent` and `ComputeIfPresent` may panic
where `U` allows it. `ret i none` in a history says that the call `i` ended with the panic of its function; `survived H` is the history without
these events.
-/
namespace Verif.XSync.MapConc
open Verif.Conc Verif.Go

variable {K V : Type} [DecidableEq K] [DecidableEq V] {U : Panics K V} {m : ConfP K V} {H : List (Ev (Op K V) (Option (Res K V)))}

/-- **C124.** For the other calls a call that panicked is a call that has not returned: their history is one of the map without panics, and
has the guarantees of C21, C22 and C23. -/
theorem C124_map_history (h : (progP U).mach.Exec m H) : ∃ m₀, prog.mach.Exec m₀ (survived H) :=
  (crash_sim h).imp fun _ h => h.1

/-- **C124.** A call that panicked has no effect: there is an order of the effects that explains the history of the other calls in which it does
not occur. -/
theorem C124_map_effects (h : (progP U).mach.Exec m H) : ∃ L st, Linearization mapSpec (survived H) L st ∧ ∀ x ∈ L, Ev.ret x.1 none ∉ H := effects h

/-- **C124.** The same for a map on which every operation is atomic, without `ComputeIfPresent` (C22). -/
theorem C124_map_strict (h : (progP U).mach.Exec m H) (hno : ∀ i k f, Ev.inv i (.computeIfPresent k f) ∉ H) :
    ∃ L st, Linearization strictSpec (survived H) L st ∧ ∀ x ∈ L, Ev.ret x.1 none ∉ H := by
  obtain ⟨L, st, hL, hx⟩ := effects h
  refine ⟨L, st, ⟨hL.once, hL.invoked, hL.returned, hL.init, ?_, hL.order⟩, hx⟩
  intro n i op r hn
  refine ⟨hL.legal n i op r hn, ?_⟩
  rintro k f w v rfl
  exact absurd (mem_survived_inv.mp (hL.invoked _ (List.mem_of_getElem? hn))) (hno i k f)

/-- **C124.** Without new calls every execution ends. -/
theorem C124_map_ends (h : (progP U).mach.Exec m H) : Acc (progP U).Moves m := (sinks.crash (panicAt U)).ends h

/-- **C124, the part that holds.** Where nothing moves every call has returned or panicked, if only functions of `Range` have panicked. Missing: the
same with functions of `ComputeIfAbsent` and `ComputeIfPresent`, which is false (`C124_computeIfAbsent_refuted`). -/
theorem C124_map_returns_partial (h : (progP U).mach.Exec m H) (hs : ∀ j c, (progP U).mach.next m j c = none)
    (hno : ∀ j op, Ev.inv j op ∈ H → Ev.ret j none ∈ H → ∃ f, op = .range f) {i : Nat} {op : Op K V} (hi : Ev.inv i op ∈ H) : ∃ r, Ev.ret i r ∈ H := by
  refine Classical.byContradiction fun hr => ?_
  obtain ⟨_, j, op', _, _, _, h1, h2, h3, _⟩ := blocked h hs hi fun r hr' => hr ⟨r, hr'⟩
  obtain ⟨f, rfl⟩ := hno j op' h2 h3
  exact h1

/-- Every function may panic. -/
def anyPanics : Panics Nat Nat := fun _ _ _ _ => true

/-- **C124, the refutation.** The function of `ComputeIfAbsent` panics: no call returns any more, whatever calls are made and however the
execution continues. -/
theorem C124_computeIfAbsent_refuted : ∃ m H, (progP anyPanics).mach.Exec m H ∧ H = [.inv 1 (.computeIfAbsent 0 fun _ _ => 5), .ret 1 none] ∧
    ∀ m' H', (progP anyPanics).mach.Onward m H m' H' → ∀ i r, Ev.ret i r ∈ H' → Ev.ret i r ∈ H := by
  have : ∃ m, (progP anyPanics).mach.Exec m [.inv 1 (.computeIfAbsent 0 fun _ _ => 5), .ret 1 none] ∧ (m.g.mu = some 1 ∧ m.g.read = [] ∧ m.g.amended = true ∧
      m.pc 1 = .done (.computeIfAbsent 0 fun _ _ => 5) none) :=
    Mach.exists_exec_state _ ([.inv 1 (.computeIfAbsent 0 fun _ _ => 5)] ++ runs 8 1) _ _
      (by exact And.intro rfl (And.intro rfl (And.intro rfl (And.intro rfl rfl))))
  obtain ⟨m, h, h1, h2, h3, h4⟩ := this
  refine ⟨m, _, h, rfl, fun m' H' ho i r hr => ?_⟩
  refine Dead.forever (m := m) ⟨by simp [h1], h2, h3, fun j => ?_⟩ ho hr
  by_cases hj : j = 1
  · subst hj; exact .inr (.inr (.inr ⟨_, _, h4⟩))
  · exact .inl ((progP anyPanics).not_made h (by simp [hj]))

/-- **C124, the refutation.** The same with the function of `ComputeIfPresent`. -/
theorem C124_computeIfPresent_refuted : ∃ m H, (progP anyPanics).mach.Exec m H ∧
    H = [.inv 1 (.store 0 5), .ret 1 (some .unit), .inv 2 (.computeIfPresent 0 fun _ v _ => v + 1), .ret 2 none] ∧
    ∀ m' H', (progP anyPanics).mach.Onward m H m' H' → ∀ i r, Ev.ret i r ∈ H' → Ev.ret i r ∈ H := by
  have : ∃ m, (progP anyPanics).mach.Exec m [.inv 1 (.store 0 5), .ret 1 (some .unit), .inv 2 (.computeIfPresent 0 fun _ v _ => v + 1), .ret 2 none] ∧
      (m.g.mu = some 2 ∧ m.g.read = [] ∧ m.g.amended = true ∧ m.pc 1 = .done (.store 0 5) (some .unit) ∧
      m.pc 2 = .done (.computeIfPresent 0 fun _ v _ => v + 1) none) :=
    Mach.exists_exec_state _ ([.inv 1 (.store 0 5)] ++ runs 9 1 ++ [.inv 2 (.computeIfPresent 0 fun _ v _ => v + 1)] ++ runs 6 2) _ _
      (by exact And.intro rfl (And.intro rfl (And.intro rfl (And.intro rfl (And.intro rfl rfl)))))
  obtain ⟨m, h, h1, h2, h3, h4, h5⟩ := this
  refine ⟨m, _, h, rfl, fun m' H' ho i r hr => ?_⟩
  refine Dead.forever (m := m) ⟨by simp [h1], h2, h3, fun j => ?_⟩ ho hr
  by_cases hj : j = 1
  · subst hj; exact .inr (.inr (.inr ⟨_, _, h4⟩))
  by_cases hj' : j = 2
  · subst hj'; exact .inr (.inr (.inr ⟨_, _, h5⟩))
  · exact .inl ((progP anyPanics).not_made h (by simp [hj, hj']))

/-- The function of a `ComputeIfAbsent` panics, without the lock, because an entry of the key is in the read map; then that of a `Range`. -/
theorem demoPanics : ∃ m, (progP anyPanics).mach.Exec m [.inv 1 (.store 0 5), .ret 1 (some .unit), .inv 2 (.load 0), .ret 2 (some (.value (some 5))),
    .inv 3 (.delete 0), .ret 3 (some .unit), .inv 4 (.computeIfAbsent 0 fun _ _ => 6), .inv 5 (.store 0 7), .ret 5 (some .unit), .ret 4 none,
    .inv 6 (.range fun _ _ _ => true), .inv 7 (.load 0), .ret 6 none, .ret 7 (some (.value (some 7)))] :=
  Mach.exists_exec _ ([.inv 1 (.store 0 5)] ++ runs 9 1 ++ [.inv 2 (.load 0)] ++ runs 8 2 ++ [.inv 3 (.delete 0)] ++ runs 4 3 ++
    [.inv 4 (.computeIfAbsent 0 fun _ _ => 6)] ++ runs 2 4 ++ [.inv 5 (.store 0 7)] ++ runs 4 5 ++ runs 2 4 ++
    [.inv 6 (.range fun _ _ _ => true)] ++ runs 3 6 ++ [.inv 7 (.load 0)] ++ runs 1 6 ++ runs 3 7) _ rfl

example := demoPanics.imp fun _ h => C124_map_history h

example := demoPanics.imp fun _ h => C124_map_effects h

example := demoPanics.imp fun _ h => C124_map_strict h (by simp)

example := demoPanics.imp fun _ h => C124_map_ends h

/-- The function of a `Range` panics during a `Store`; nothing moves any more. -/
theorem demoPanicsRange : ∃ m, (progP anyPanics).mach.Exec m [.inv 1 (.store 0 5), .ret 1 (some .unit), .inv 2 (.range fun _ _ _ => true), .inv 3 (.store 1 6),
      .ret 2 none, .ret 3 (some .unit)] ∧ ∀ j c, (progP anyPanics).mach.next m j c = none := by
  have : ∃ m, (progP anyPanics).mach.Exec m [.inv 1 (.store 0 5), .ret 1 (some .unit), .inv 2 (.range fun _ _ _ => true), .inv 3 (.store 1 6), .ret 2 none,
      .ret 3 (some .unit)] ∧ (m.pc 1 = .done (.store 0 5) (some .unit) ∧ m.pc 2 = .done (.range fun _ _ _ => true) none ∧ m.pc 3 = .done (.store 1 6) (some .unit)) :=
    Mach.exists_exec_state _ ([.inv 1 (.store 0 5)] ++ runs 9 1 ++ [.inv 2 (.range fun _ _ _ => true)] ++ runs 7 2 ++ [.inv 3 (.store 1 6)] ++ runs 1 2 ++ runs 11 3) _ _
      (by exact And.intro rfl (And.intro rfl (And.intro rfl rfl)))
  obtain ⟨m, h, h1, h2, h3⟩ := this
  refine ⟨m, h, fun j c => ?_⟩
  by_cases e1 : j = 1
  · subst e1; simp [Prog.mach, h1]
  by_cases e2 : j = 2
  · subst e2; simp [Prog.mach, h2]
  by_cases e3 : j = 3
  · subst e3; simp [Prog.mach, h3]
  simp [Prog.mach, (progP anyPanics).not_made h (i := j) (by simp [e1, e2, e3])]

example := demoPanicsRange.imp fun _ h => C124_map_returns_partial h.1 h.2
  (by
    intro j op h1 h2
    simp only [List.mem_cons, Ev.ret.injEq, reduceCtorEq, and_false, false_or, List.not_mem_nil, or_false, and_true] at h2
    subst h2
    simp at h1
    exact ⟨_, h1⟩) (i := 3) (op := .store 1 6) (by simp)

end Verif.XSync.MapConc

import Verif.XSync.SharedCrash
/-!
# C124 for `xsync.SharedMap`: user functions that panic

`(progP m U).mach.Exec mm H` are the executions in which the functions given to `Range`, `ComputeIfAbsent` and `ComputeIfPresent` may panic
where `U` allows it. `ret i none` in a history says that the call `i` ended with the panic of its function; `survived H` is the history without
these events.
-/
namespace Verif.XSync.SharedConc
open Verif.Conc Verif.Go
open Verif.XSync.MapConc (G Pt inside)

variable {V : Type} [DecidableEq V] {opts : List Int} {m : Shape} {U : Panics V} {mm : CfP V} {H : List (Ev (SOp V) (Option (SRes V)))}

/-- **C124.** For the other calls a call that panicked is a call that has not returned: their history is one of the map without panics. -/
theorem C124_shared_history (h : (progP m U).mach.Exec mm H) : ∃ m₀, (prog m).mach.Exec m₀ (survived H) :=
  (crash_sim h).imp fun _ h => h.1

/-- **C124.** A call that panicked has no effect: there is an order of the effects that explains the history of the other calls, as in C88, in which
the calls that panicked change nothing (of `Range`, which changes nothing anyway, there are the visits of the shards before the panic). -/
theorem C124_shared_effects (h1 : 1 ≤ Shared.requested opts) (h2 : Shared.requested opts ≤ 2^31) (hm : newShape opts = some m) (h : (progP m U).mach.Exec mm H) :
    ∃ L st, Explains (survived H) L st ∧ RangeOk (survived H) L st ∧ PresentOk (survived H) L st ∧
      ∀ n i op r, L[n]? = some (i, op, r) → Ev.ret i none ∈ H → (∃ f, op = .range f) ∧ st (n + 1) = st n := effects (shape_good h1 h2 hm) h

/-- **C124.** Without new calls every execution ends. -/
theorem C124_shared_ends (h : (progP m U).mach.Exec mm H) : Acc (progP m U).Moves mm := (shared_sinks.crash (panicAt U)).ends h

/-- **C124, the part that holds.** Where nothing moves, a call has returned or panicked if it uses no shard for which a function of
`ComputeIfAbsent` or `ComputeIfPresent` has panicked. Missing: the same for all calls, which is false (`C124_shared_refuted`). -/
theorem C124_shared_returns_partial (h : (progP m U).mach.Exec mm H) (hs : ∀ j c, (progP m U).mach.next mm j c = none) {i : Nat} {op : SOp V}
    (hi : Ev.inv i op ∈ H) (hno : ∀ j op' k, computes op' = some k → Ev.inv j op' ∈ H → Ev.ret j none ∈ H → ¬ Touches m op (m.index k)) :
    ∃ r, Ev.ret i r ∈ H := by
  refine Classical.byContradiction fun hr => ?_
  obtain ⟨j, op', k, h1, h2, h3, h4, _⟩ := blocked h hs hi fun r hr' => hr ⟨r, hr'⟩
  exact hno j op' k h1 h2 h3 h4

/-- Every function may panic. -/
def anyPanics : Panics Nat := fun _ _ _ _ => true

/-- **C124, the refutation.** The function of `ComputeIfAbsent` panics for the key 97, which is in shard 0 of two: no `Range` and no call for a key of shard 0
returns any more, whatever calls are made and however the execution continues. -/
theorem C124_shared_refuted : ∃ (mm : CfP Nat) (H : _), (progP two anyPanics).mach.Exec mm H ∧ H = [.inv 1 (.computeIfAbsent [97] fun _ _ => 5), .ret 1 none] ∧
    ∀ mm' H', (progP two anyPanics).mach.Onward mm H mm' H' → ∀ i op r, Ev.inv i op ∈ H' → i ≠ 1 → Touches two op 0 → (∀ data, op ≠ .mstore data) →
      Ev.ret i r ∉ H' := by
  have : ∃ mm : CfP Nat, (progP two anyPanics).mach.Exec mm [.inv 1 (.computeIfAbsent [97] fun _ _ => 5), .ret 1 none] ∧ ((mm.g 0).mu = some (Nat.pair 1 0) ∧
      (mm.g 0).read = [] ∧ (mm.g 0).amended = true ∧ mm.pc 1 = .done (.computeIfAbsent [97] fun _ _ => 5) none) :=
    Mach.exists_exec_state _ ([.inv 1 (.computeIfAbsent [97] fun _ _ => 5)] ++ runs 9 1) _ _
      (by exact And.intro rfl (And.intro rfl (And.intro rfl (And.intro rfl rfl))))
  obtain ⟨mm, h, h1, h2, h3, h4⟩ := this
  refine ⟨mm, _, h, rfl, fun mm' H' ho i op r hi hne ht hms => ?_⟩
  have hidle : ∀ j, j ≠ 1 → mm.pc j = .idle := fun j hj => (progP two anyPanics).not_made h (by simp [hj])
  have hd : Dead two 0 (fun j => j = 1) mm := by
    refine ⟨by simp [h1], h2, h3, fun j op tr o p hj => ?_, fun j op b z hD _ hv => ?_⟩
    · by_cases hj1 : j = 1
      · subst hj1; rw [h4] at hj; simp at hj
      · rw [hidle j hj1] at hj; simp at hj
    · simp [Conf.view, hidle j hD, Proc.view] at hv
  have hn : ∃ b, two.next op ([] : Tr Nat) = .inl (0, b) := by
    have key : ∀ k b, two.index k = 0 → two.on k b = .inl (0, (b : BOp Nat)) := by
      intro k b hk
      have : (0 : Nat) < two.len := by decide
      simp [Shape.on, hk, this]
    cases op with
    | mstore data => exact absurd rfl (hms data)
    | range f => exact ⟨.range f, by simp [Shape.next]⟩
    | _ => exact ⟨_, by simp only [Shape.next, keyed]; exact key _ _ ht⟩
  obtain ⟨b, hn⟩ := hn
  exact hd.forever h ho (D := fun j => j = 1) hne hn hi

/-- The function of `ComputeIfAbsent` panics for key 97 and locks shard 0; a `Load` of a key of this shard waits; a `Store` in shard 1 and the panic of
the function of a `Range` before. Nothing moves any more. -/
theorem demoPanics : ∃ mm : CfP Nat, (progP two anyPanics).mach.Exec mm [.inv 1 (.store [98] 5), .ret 1 (some .unit), .inv 2 (.range fun _ _ _ => true), .ret 2 none,
      .inv 3 (.computeIfAbsent [97] fun _ _ => 5), .inv 4 (.load [99]), .ret 3 none, .inv 5 (.store [98] 6), .ret 5 (some .unit)] ∧
    ∀ j c, (progP two anyPanics).mach.next mm j c = none := by
  have : ∃ mm : CfP Nat, (progP two anyPanics).mach.Exec mm [.inv 1 (.store [98] 5), .ret 1 (some .unit), .inv 2 (.range fun _ _ _ => true), .ret 2 none,
        .inv 3 (.computeIfAbsent [97] fun _ _ => 5), .inv 4 (.load [99]), .ret 3 none, .inv 5 (.store [98] 6), .ret 5 (some .unit)] ∧
      (mm.pc 1 = .done (.store [98] 5) (some .unit) ∧ mm.pc 2 = .done (.range fun _ _ _ => true) none ∧
        mm.pc 3 = .done (.computeIfAbsent [97] fun _ _ => 5) none ∧ mm.pc 4 = .at (.load [99]) (.inner [] (0, .load [99]) .lock) ∧
        mm.pc 5 = .done (.store [98] 6) (some .unit) ∧ (mm.g 0).mu = some (Nat.pair 3 0)) :=
    Mach.exists_exec_state _ ([.inv 1 (.store [98] 5)] ++ runs 11 1 ++ [.inv 2 (.range fun _ _ _ => true)] ++ runs 12 2 ++
      [.inv 3 (.computeIfAbsent [97] fun _ _ => 5)] ++ runs 8 3 ++ [.inv 4 (.load [99])] ++ runs 2 4 ++ runs 1 3 ++ [.inv 5 (.store [98] 6)] ++ runs 6 5) _ _
      (by exact And.intro rfl (And.intro rfl (And.intro rfl (And.intro rfl (And.intro rfl (And.intro rfl rfl))))))
  obtain ⟨mm, h, h1, h2, h3, h4, h5, h6⟩ := this
  refine ⟨mm, h, fun j c => ?_⟩
  by_cases e1 : j = 1
  · subst e1; simp [Prog.mach, h1]
  by_cases e2 : j = 2
  · subst e2; simp [Prog.mach, h2]
  by_cases e3 : j = 3
  · subst e3; simp [Prog.mach, h3]
  by_cases e4 : j = 4
  · subst e4
    have hq : panicAt anyPanics (.load [99]) (.inner [] (0, .load [99]) .lock) = false := rfl
    have hz : MapConc.prog.step (mm.g 0) (Nat.pair 4 0) (.load [99]) .lock c = none := by simp [MapConc.prog, MapConc.step, h6]
    have hst : (progP two anyPanics).step mm.g 4 (.load [99]) (.inner [] (0, .load [99]) .lock) c = none := by
      simp [progP, Prog.crash, hq, prog, Client.prog, hz, Conc.lift]
    simp only [Prog.mach, h4, hst]
  by_cases e5 : j = 5
  · subst e5; simp [Prog.mach, h5]
  simp [Prog.mach, (progP two anyPanics).not_made h (i := j) (by simp [e1, e2, e3, e4, e5])]

example := demoPanics.imp fun _ h => C124_shared_history h.1

example := demoPanics.imp fun _ h => C124_shared_effects (opts := [2]) (by decide) (by decide) rfl h.1

example := demoPanics.imp fun _ h => C124_shared_ends h.1

example := demoPanics.imp fun _ h => C124_shared_returns_partial h.1 h.2 (i := 5) (op := .store [98] 6) (by simp) (by
  intro j op k h1 h2 h3 h4
  simp only [List.mem_cons, Ev.ret.injEq, reduceCtorEq, and_false, false_or, List.not_mem_nil, or_false, and_true] at h3
  rcases h3 with rfl | rfl
  · simp at h2; subst h2; simp [computes] at h1
  · simp at h2; subst h2; simp [computes] at h1; subst h1
    have h4 : two.index [98] = two.index [97] := h4
    exact absurd h4 (by decide))

end Verif.XSync.SharedConc

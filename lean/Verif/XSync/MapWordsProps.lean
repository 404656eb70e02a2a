import Verif.XSync.MapWorldsGlue
/-!
# Properties of `Clear` concurrent with other operations

C118. A call that overlaps a `Clear` may panic (C24). Here it is shown that this is all that goes wrong: without the calls that panicked, every
history is that of an ordinary map on which `Clear` removes everything at one instant.
-/
namespace Verif.XSync.MapWords
open Verif.Conc Verif.Go Verif.XSync.MapConc

variable {K V : Type} [DecidableEq K] [DecidableEq V]

/-! ## Concrete executions -/

/-- A `Load` (call 3) has found the entry when `Clear` (call 2) runs. It returns the old value after a later `Load` (call 4) found nothing. -/
theorem demoOverlap : ∃ m, (progW (K := Nat) (V := Nat)).mach.Exec m
    [.inv 1 (.inl (.store 0 5)), .ret 1 .unit, .inv 3 (.inl (.load 0)), .inv 2 (.inr .clear), .inv 4 (.inl (.load 0)), .ret 4 (.value none),
     .ret 2 .unit, .ret 3 (.value (some 5))] :=
  Mach.exists_exec _ ([.inv 1 (.inl (.store 0 5))] ++ List.replicate 11 (.run 1 0) ++ [.inv 3 (.inl (.load 0))] ++ List.replicate 7 (.run 3 0) ++
    [.inv 2 (.inr .clear)] ++ List.replicate 3 (.run 2 0) ++ [.inv 4 (.inl (.load 0))] ++ List.replicate 2 (.run 4 0) ++ List.replicate 4 (.run 2 0) ++
    List.replicate 2 (.run 3 0)) _ rfl

/-- A `Load` (call 3) that overlaps a `Clear` (call 2) panics, a `Store` (call 4) that overlaps it does not. -/
theorem demoTorn : ∃ m, (progW (K := Nat) (V := Nat)).mach.Exec m
    [.inv 1 (.inl (.store 0 5)), .ret 1 .unit, .inv 3 (.inl (.load 0)), .inv 4 (.inl (.store 1 6)), .inv 2 (.inr .clear), .ret 3 .panic, .ret 2 .unit,
     .ret 4 .unit] :=
  Mach.exists_exec _ ([.inv 1 (.inl (.store 0 5))] ++ List.replicate 11 (.run 1 0) ++ [.inv 3 (.inl (.load 0)), .run 3 0, .inv 4 (.inl (.store 1 6)), .run 4 0, .run 4 0,
    .inv 2 (.inr .clear)] ++ List.replicate 3 (.run 2 0) ++ List.replicate 2 (.run 3 0) ++ List.replicate 4 (.run 2 0) ++ List.replicate 10 (.run 4 0)) _ rfl

/-- A `ComputeIfPresent` and a `Range` overlap a `Clear` and see what was there before it. -/
theorem demoSees : ∃ m, (progW (K := Nat) (V := Nat)).mach.Exec m
    [.inv 1 (.inl (.store 0 5)), .ret 1 .unit, .inv 5 (.inl (.load 0)), .ret 5 (.value (some 5)), .inv 3 (.inl (.computeIfPresent 0 fun _ v _ => v + 1)),
     .inv 4 (.inl (.range fun _ _ _ => true)), .inv 2 (.inr .clear), .ret 2 .unit, .ret 3 (.present (some (5, 6))), .ret 4 (.visited [(0, 6)] true)] :=
  Mach.exists_exec _ ([.inv 1 (.inl (.store 0 5))] ++ List.replicate 11 (.run 1 0) ++ [.inv 5 (.inl (.load 0))] ++ List.replicate 9 (.run 5 0) ++
    [.inv 3 (.inl (.computeIfPresent 0 fun _ v _ => v + 1)), .run 3 0, .run 3 0, .inv 4 (.inl (.range fun _ _ _ => true)), .run 4 0, .run 4 0,
    .inv 2 (.inr .clear)] ++ List.replicate 7 (.run 2 0) ++ List.replicate 4 (.run 3 0) ++ List.replicate 4 (.run 4 0)) _ rfl

/-! ## C118 -/

section
variable {m : Conf (GW K V) (Op K V ⊕ ClearOp) (Res K V) (PtW K V)} {H : List (Ev (Op K V ⊕ ClearOp) (Res K V))}

omit [DecidableEq K] [DecidableEq V] in
/-- Nothing is left out if nothing panicked. -/
theorem settled_self (h : ∀ i, Ev.ret i .panic ∉ H) : settled H = H := by
  classical
  refine List.filter_eq_self.2 ?_
  rintro (⟨i, _⟩ | ⟨i, _⟩) _ <;> simp [h i]

/-- **C118.** `Clear` is atomic, whatever it overlaps: the history of the calls that did not panic (without `ComputeIfPresent`, see C22) is
linearizable with respect to an ordinary map on which `Clear` removes everything. In particular the calls that panicked had no effect. -/
theorem C118_linearizable (h : progW.mach.Exec m H) (hno : ∀ i k f, Ev.inv i (.inl (.computeIfPresent k f)) ∉ H) : Linearizable strictSpecC (settled H) := by
  obtain ⟨L, st, hL, _⟩ := rel_linearization (rel_exec h)
  refine Linearization.linearizable (st := st) (L := L) ⟨hL.once, hL.invoked, hL.returned, hL.init, ?_, hL.order⟩
  intro n i o r hn
  have := hL.legal n i o r hn
  cases o with
  | inr x => exact this
  | inl op =>
    refine ⟨this, ?_⟩
    rintro k f w v rfl
    exact absurd (mem_settled_inv.1 (hL.invoked _ (List.mem_of_getElem? hn))).1 (hno i k f)

example := demoTorn.elim fun _ h => C118_linearizable h (by simp)

/-- **C118.** If no call panicked, the whole history is linearizable. -/
theorem C118_calm (h : progW.mach.Exec m H) (hno : ∀ i k f, Ev.inv i (.inl (.computeIfPresent k f)) ∉ H) (hp : ∀ i, Ev.ret i .panic ∉ H) :
    Linearizable strictSpecC H := by
  have := C118_linearizable h hno
  rwa [settled_self hp] at this

example := demoOverlap.elim fun _ h => C118_calm h (by simp) (by simp)

/-- **C118.** With `ComputeIfPresent` and `Range`, as in C104, but with `Clear`s that may overlap anything: there is a linearization of the calls
that did not panic in which the function of a `ComputeIfPresent` is applied to a value that the key had during the call, before the replacement,
and a `Range` visits pairs that were there during the call, no key twice, and all keys that were present throughout, unless its function
stopped it. -/
theorem C118_observed (h : progW.mach.Exec m H) : ∃ L st, Linearization mapSpecC (settled H) L st ∧
      (∀ i k f w v, Ev.inv i (.inl (.computeIfPresent k f)) ∈ H → Ev.ret i (.present (some (w, v))) ∈ H →
        ∃ n n' o r, L[n']? = some (i, o, r) ∧ During (settled H) L i n ∧ n ≤ n' ∧ st n k = some w) ∧
      ∀ i f l all, Ev.inv i (.inl (.range f)) ∈ H → Ev.ret i (.visited l all) ∈ H →
        (l.map (·.1)).Nodup ∧ (∀ k v, (k, v) ∈ l → ∃ n, During (settled H) L i n ∧ st n k = some v) ∧
        (all = true → ∀ k, (∀ n, During (settled H) L i n → st n k ≠ none) → ∃ v, (k, v) ∈ l) := by
  obtain ⟨L, st, hL, ho⟩ := rel_linearization (rel_exec h)
  have hset : ∀ i r, Ev.ret i r ∈ H → r ≠ .panic → Ev.ret i .panic ∉ H := by
    intro i r hr hne hp
    obtain ⟨n, W, Hp, cl, _, h2, _⟩ := rel_exec h
    obtain ⟨o, hv⟩ := h2.ret i r hr
    obtain ⟨o', hv'⟩ := h2.ret i _ hp
    rw [hv] at hv'
    simp only [Option.some.injEq, Prod.mk.injEq, Sum.inr.injEq] at hv'
    exact hne hv'.2
  refine ⟨L, st, hL, ?_, ?_⟩
  · intro i k f w v hi hr
    have hs := hset i _ hr (by simp)
    obtain ⟨s, ⟨n, n', o, r', a1, rfl, a3, a4⟩, a5⟩ := ho i _ _ (mem_settled_inv.2 ⟨hi, hs⟩) (mem_settled_ret.2 ⟨hr, hs⟩)
    exact ⟨n, n', o, r', a4, a1, a3, a5⟩
  · intro i f l all hi hr
    have hs := hset i _ hr (by simp)
    obtain ⟨h1, h2, h3⟩ := ho i _ _ (mem_settled_inv.2 ⟨hi, hs⟩) (mem_settled_ret.2 ⟨hr, hs⟩)
    refine ⟨h1, ?_, ?_⟩
    · intro k v hk
      obtain ⟨s, ⟨n, a1, rfl⟩, a2⟩ := h2 (k, v) hk
      exact ⟨n, a1, a2⟩
    · intro hall k hk
      rcases h3 hall k with hm | ⟨s, ⟨n, a1, rfl⟩, a2⟩
      · obtain ⟨⟨k', v⟩, a1, rfl⟩ := List.mem_map.1 hm
        exact ⟨v, a1⟩
      · exact absurd a2 (hk n a1)

example := demoSees.elim fun _ h => C118_observed h

/-- **C118.** Only calls that overlap a `Clear` can panic, and `Clear` itself cannot. -/
theorem C118_panics (h : progW.mach.Exec m H) {i : Nat} (hi : Ev.ret i .panic ∈ H) :
    (∃ op, Ev.inv i (.inl op) ∈ H) ∧ ∃ j, Ev.inv j (.inr .clear) ∈ H ∧ ¬ Before H j i ∧ ¬ Before H i j := by
  obtain ⟨n, W, Hp, cl, h1, h2, h3⟩ := rel_exec h
  obtain ⟨o, hv⟩ := h2.ret i _ hi
  refine ⟨?_, h3.panic i o hv⟩
  cases o with
  | inl op => exact ⟨op, (h2.inv _ _).2 ⟨_, hv⟩⟩
  | inr x => have := h2.unit _ _ _ hv; simp at this

example := demoTorn.elim fun _ h => C118_panics h (i := 3) (by simp)

end

end Verif.XSync.MapWords

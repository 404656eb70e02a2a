import Verif.XSync.MapConcProps
/-!
# `Clear` when nothing else runs

`Clear` overwrites the field `read` with a plain assignment and must therefore not overlap other operations of the map (C24). Here it is added to
the concurrent map, and histories are considered in which it overlaps nothing. In such histories nobody can see the words of `read` while
`Clear` writes them, so that one step writes them all.
-/
namespace Verif.XSync.MapConc
open Verif.Conc Verif.Go

variable {K V : Type} [DecidableEq K] [DecidableEq V]

/-- The additional operation. -/
inductive ClearOp where
  | clear

/-- Points of `Clear` (map.go:418-425). -/
inductive ClearPt where
  /-- map.go:419 -/
  | lock
  /-- map.go:420 -/
  | read
  /-- map.go:421 -/
  | dirty
  /-- map.go:422 -/
  | misses
  /-- map.go:423 -/
  | unlock

/-- map.go:418-425 `Clear`. A `read` that was never stored loads as the zero `readOnly`. -/
def clearStep (g : G K V) (i : Nat) (_ : ClearOp) (s : ClearPt) (_ : Nat) : Option (G K V × (ClearPt ⊕ Res K V)) :=
  match s with
  | .lock => match g.mu with
    | none => some ({ g with mu := some i }, .inl .read)
    | some _ => none
  | .read => some ({ g with read := [], amended := false }, .inl .dirty)
  | .dirty => some ({ g with dirty := none }, .inl .misses)
  | .misses => some ({ g with misses := 0 }, .inl .unlock)
  | .unlock => some ({ g with mu := none }, .inr .unit)

/-- The concurrent map with `Clear`. -/
def progC : Prog (G K V) (Op K V ⊕ ClearOp) (Res K V) (Pt K V ⊕ ClearPt) := prog.withX (fun _ => .lock) clearStep

/-! ## Specification -/

/-- `Clear` removes everything. -/
def DoesClear (_ : M K V) (_ : ClearOp) (r : Res K V) (s' : M K V) : Prop := r = .unit ∧ s' = fun _ => none

/-- An ordinary map with `Clear`. -/
def mapSpecC : Spec (M K V) (Op K V ⊕ ClearOp) (Res K V) := mapSpec.withX DoesClear

/-- An ordinary map with `Clear` on which `ComputeIfPresent` is atomic. -/
def strictSpecC : Spec (M K V) (Op K V ⊕ ClearOp) (Res K V) := strictSpec.withX DoesClear

/-! ## Proofs -/

/-- `Clear` has run alone up to a point. -/
structure Clearing (g g' : G K V) (i : Nat) (y : ClearPt ⊕ Res K V) : Prop where
  mu : g'.mu = match y with | .inl .lock | .inr _ => none | _ => some i
  read : (match y with | .inl .lock | .inl .read => False | _ => True) → g'.read = [] ∧ g'.amended = false
  dirty : (match y with | .inl .lock | .inl .read | .inl .dirty => False | _ => True) → g'.dirty = none
  next : g'.next = g.next
  key : g'.key = g.key
  res : ∀ r, y = .inr r → r = .unit

omit [DecidableEq K] [DecidableEq V] in
theorem clearing {g g' : G K V} {i : Nat} {x : ClearOp} {y : ClearPt ⊕ Res K V} (hm : g.mu = none)
    (h : XRun (fun _ => ClearPt.lock) clearStep g i x g' y) : Clearing g g' i y := by
  induction h with
  | start => exact ⟨hm, by simp, by simp, rfl, rfl, by simp⟩
  | @step g' g'' t c y h1 hst ih =>
    cases t <;> simp only [clearStep] at hst
    · rw [show g'.mu = none from ih.mu] at hst
      simp only [Option.some.injEq, Prod.mk.injEq] at hst
      obtain ⟨rfl, rfl⟩ := hst
      exact ⟨rfl, by simp, by simp, ih.next, ih.key, by simp⟩
    · simp only [Option.some.injEq, Prod.mk.injEq] at hst
      obtain ⟨rfl, rfl⟩ := hst
      exact ⟨ih.mu, by simp, by simp, ih.next, ih.key, by simp⟩
    · simp only [Option.some.injEq, Prod.mk.injEq] at hst
      obtain ⟨rfl, rfl⟩ := hst
      exact ⟨ih.mu, fun _ => ih.read trivial, by simp, ih.next, ih.key, by simp⟩
    · simp only [Option.some.injEq, Prod.mk.injEq] at hst
      obtain ⟨rfl, rfl⟩ := hst
      exact ⟨ih.mu, fun _ => ih.read trivial, fun _ => ih.dirty trivial, ih.next, ih.key, by simp⟩
    · simp only [Option.some.injEq, Prod.mk.injEq] at hst
      obtain ⟨rfl, rfl⟩ := hst
      exact ⟨rfl, fun _ => ih.read trivial, fun _ => ih.dirty trivial, ih.next, ih.key, by simp⟩

/-- Nobody holds the lock when nothing runs. -/
theorem quiet_mu {g₀ : G K V} (h0 : Blank g₀) {m : Conf (G K V) (Op K V) (Res K V) (Pt K V)} {H : List (Ev (Op K V) (Res K V))}
    (h : (prog.from g₀).mach.Exec m H) (hq : m.Quiet) : m.g.mu = none ∧ ∀ e, m.g.next ≤ e → m.g.key e = none := by
  obtain ⟨gh, _, _, hI⟩ := simulation_from h0 h
  refine ⟨?_, hI.fresh⟩
  cases hm : m.g.mu with
  | none => rfl
  | some i =>
    obtain ⟨op, s, h1, _⟩ := hI.muIn i hm
    rcases hq i with h | ⟨o, r, h⟩ <;> simp [Conf.view, h, Proc.view] at h1

/-- What the results of calls say about the contents of the map during the calls. -/
def Sees (op : Op K V) (r : Res K V) (saw pre : M K V → Prop) : Prop :=
  ResOk (fun k x => ∃ s, saw s ∧ s k = x) (fun k w => ∃ s, pre s ∧ s k = some w) op r

theorem clear_blank : ∀ (g₀ : G K V) (m₁ : Conf (G K V) (Op K V) (Res K V) (Pt K V)) (H₁ : List (Ev (Op K V) (Res K V))) (i : Nat) (x : ClearOp)
    (g' : G K V) (r : Res K V), Blank g₀ → (prog.from g₀).mach.Exec m₁ H₁ → m₁.Quiet → XRun (fun _ => ClearPt.lock) clearStep m₁.g i x g' (.inr r) →
    Blank g' ∧ ∀ s, DoesClear s x r (G.a g').abs := by
  intro g₀ m₁ H₁ i x g' r h0 h hq hx
  obtain ⟨h1, h2⟩ := quiet_mu h0 h hq
  have hc := clearing h1 hx
  have hb : Blank g' := ⟨hc.mu, (hc.read trivial).1, (hc.read trivial).2, hc.dirty trivial, by rw [hc.next, hc.key]; exact h2⟩
  exact ⟨hb, fun s => ⟨hc.res r rfl, blank_abs hb⟩⟩

theorem phases : ∀ (g₀ : G K V) (m₁ : Conf (G K V) (Op K V) (Res K V) (Pt K V)) (H₁ : List (Ev (Op K V) (Res K V))), Blank g₀ →
    (prog.from g₀).mach.Exec m₁ H₁ → ∃ L st, Linearization ⟨g₀.a.abs, mapSpec.step⟩ H₁ L st ∧
      ∀ i op r, Ev.inv i op ∈ H₁ → Ev.ret i r ∈ H₁ → Sees op r (fun s => ∃ n, During H₁ L i n ∧ st n = s)
        (fun s => ∃ n n' o r', During H₁ L i n ∧ st n = s ∧ n ≤ n' ∧ L[n']? = some (i, o, r')) := by
  intro g₀ m₁ H₁ h0 h
  obtain ⟨L, st, hL, ho⟩ := observed_from h0 h
  refine ⟨L, st, by rw [blank_abs h0]; exact hL, ?_⟩
  intro i op r hi hr
  refine resOk_mono ?_ ?_ (ho i op r hi hr)
  · rintro k x ⟨n, a1, a2⟩; exact ⟨st n, ⟨n, a1, rfl⟩, a2⟩
  · rintro k w ⟨n, n', o, r', a1, a2, a3, a4⟩; exact ⟨st n, ⟨n, n', o, r', a1, rfl, a3, a4⟩, a2⟩

omit [DecidableEq V] in
theorem sees_mono (op : Op K V) (r : Res K V) (a b a' b' : M K V → Prop) (h1 : ∀ s, a s → a' s) (h2 : ∀ s, b s → b' s) (h : Sees op r a b) :
    Sees op r a' b' := by
  refine resOk_mono ?_ ?_ h
  · rintro k x ⟨s, a1, a2⟩; exact ⟨s, h1 s a1, a2⟩
  · rintro k w ⟨s, a1, a2⟩; exact ⟨s, h2 s a1, a2⟩

theorem observedC {m : Conf (G K V) (Op K V ⊕ ClearOp) (Res K V) (Pt K V ⊕ ClearPt)} {H : List (Ev (Op K V ⊕ ClearOp) (Res K V))}
    (h : progC.mach.Exec m H) (hx : Exclusive H) : ∃ L st, Linearization mapSpecC H L st ∧ Observes Sees H L st :=
  exclusive_linearization (P := prog) (Sp := mapSpec) (R := Sees) (abs := fun g => g.a.abs) (Ok := Blank) blank_zero (blank_abs blank_zero) sees_mono
    phases clear_blank h hx

/-! ## Properties -/

/-- A history in which `Clear` overlaps nothing, while other calls overlap each other. -/
theorem demoClear : ∃ m, (progC (K := Nat) (V := Nat)).mach.Exec m
    [.inv 1 (.inl (.store 0 5)), .inv 2 (.inl (.store 1 6)), .ret 2 .unit, .ret 1 .unit, .inv 3 (.inr .clear), .ret 3 .unit,
     .inv 4 (.inl (.load 0)), .inv 5 (.inl (.store 1 7)), .ret 4 (.value none), .ret 5 .unit, .inv 6 (.inl (.range fun _ _ _ => true)),
     .ret 6 (.visited [(1, 7)] true)] :=
  Mach.exists_exec _ ([.inv 1 (.inl (.store 0 5)), .inv 2 (.inl (.store 1 6))] ++ List.replicate 9 (.run 2 0) ++ List.replicate 6 (.run 1 0) ++
    [.inv 3 (.inr .clear)] ++ List.replicate 6 (.run 3 0) ++ [.inv 4 (.inl (.load 0)), .inv 5 (.inl (.store 1 7))] ++
    List.replicate 2 (.run 4 0) ++ List.replicate 9 (.run 5 0) ++ [.inv 6 (.inl (.range fun _ _ _ => true))] ++ List.replicate 9 (.run 6 0)) _ rfl

/-- Only the calls 1 and 2, and 4 and 5, overlap. -/
theorem demoExclusive : Exclusive (X := ClearOp) (Op := Op Nat Nat) (Res := Res Nat Nat)
    [.inv 1 (.inl (.store 0 5)), .inv 2 (.inl (.store 1 6)), .ret 2 .unit, .ret 1 .unit, .inv 3 (.inr .clear), .ret 3 .unit,
     .inv 4 (.inl (.load 0)), .inv 5 (.inl (.store 1 7)), .ret 4 (.value none), .ret 5 .unit, .inv 6 (.inl (.range fun _ _ _ => true)),
     .ret 6 (.visited [(1, 7)] true)] := by
  intro i x j o hi hj hne
  simp only [List.mem_cons, Ev.inv.injEq, reduceCtorEq, List.not_mem_nil, or_false, false_or, and_false, or_self] at hi
  obtain ⟨rfl, hi⟩ := hi
  simp only [List.mem_cons, Ev.inv.injEq, reduceCtorEq, List.not_mem_nil, or_false, false_or] at hj
  rcases hj with h | h | h | h | h | h <;> obtain ⟨rfl, rfl⟩ := h
  · right; exact ⟨List.take 4 _, List.drop 4 _, .unit, .inr x, (List.take_append_drop 4 _).symm, by simp, by simp [hi]⟩
  · right; exact ⟨List.take 4 _, List.drop 4 _, .unit, .inr x, (List.take_append_drop 4 _).symm, by simp, by simp [hi]⟩
  · exact absurd rfl hne
  · left; exact ⟨List.take 6 _, List.drop 6 _, .unit, _, (List.take_append_drop 6 _).symm, by simp, by simp; rfl⟩
  · left; exact ⟨List.take 6 _, List.drop 6 _, .unit, _, (List.take_append_drop 6 _).symm, by simp, by simp; rfl⟩
  · left; exact ⟨List.take 6 _, List.drop 6 _, .unit, _, (List.take_append_drop 6 _).symm, by simp, by simp; rfl⟩

/-- **C104.** If no `Clear` overlaps another call, a concurrent history (without `ComputeIfPresent`, see C22) is linearizable with respect to
an ordinary map on which `Clear` removes everything. -/
theorem C104_clear_linearizable {m : Conf (G K V) (Op K V ⊕ ClearOp) (Res K V) (Pt K V ⊕ ClearPt)} {H : List (Ev (Op K V ⊕ ClearOp) (Res K V))}
    (h : progC.mach.Exec m H) (hx : Exclusive H) (hno : ∀ i k f, Ev.inv i (.inl (.computeIfPresent k f)) ∉ H) : Linearizable strictSpecC H := by
  obtain ⟨L, st, hL, _⟩ := observedC h hx
  refine Linearization.linearizable (st := st) (L := L) ⟨hL.once, hL.invoked, hL.returned, hL.init, ?_, hL.order⟩
  intro n i o r hn
  have := hL.legal n i o r hn
  cases o with
  | inr x => exact this
  | inl op =>
    refine ⟨this, ?_⟩
    rintro k f w v rfl
    exact absurd (hL.invoked _ (List.mem_of_getElem? hn)) (hno i k f)

example := demoClear.elim fun _ h => C104_clear_linearizable h demoExclusive (by simp)

/-- **C104.** With `ComputeIfPresent` and `Range`: if no `Clear` overlaps another call, there is a linearization in which the function of a
`ComputeIfPresent` is applied to a value that the key had during the call, before the replacement, and a `Range` visits pairs that were there
during the call, no key twice, and all keys that were present throughout, unless its function stopped it. -/
theorem C104_clear_observed {m : Conf (G K V) (Op K V ⊕ ClearOp) (Res K V) (Pt K V ⊕ ClearPt)} {H : List (Ev (Op K V ⊕ ClearOp) (Res K V))}
    (h : progC.mach.Exec m H) (hx : Exclusive H) : ∃ L st, Linearization mapSpecC H L st ∧
      (∀ i k f w v, Ev.inv i (.inl (.computeIfPresent k f)) ∈ H → Ev.ret i (.present (some (w, v))) ∈ H →
        ∃ n n' o r, L[n']? = some (i, o, r) ∧ During H L i n ∧ n ≤ n' ∧ st n k = some w) ∧
      ∀ i f l all, Ev.inv i (.inl (.range f)) ∈ H → Ev.ret i (.visited l all) ∈ H →
        (l.map (·.1)).Nodup ∧ (∀ k v, (k, v) ∈ l → ∃ n, During H L i n ∧ st n k = some v) ∧
        (all = true → ∀ k, (∀ n, During H L i n → st n k ≠ none) → ∃ v, (k, v) ∈ l) := by
  obtain ⟨L, st, hL, ho⟩ := observedC h hx
  refine ⟨L, st, hL, ?_, ?_⟩
  · intro i k f w v hi hr
    obtain ⟨s, ⟨n, n', o, r', a1, rfl, a3, a4⟩, a5⟩ := ho i _ _ hi hr
    exact ⟨n, n', o, r', a4, a1, a3, a5⟩
  · intro i f l all hi hr
    obtain ⟨h1, h2, h3⟩ := ho i _ _ hi hr
    refine ⟨h1, ?_, ?_⟩
    · intro k v hk
      obtain ⟨s, ⟨n, a1, rfl⟩, a2⟩ := h2 (k, v) hk
      exact ⟨n, a1, a2⟩
    · intro hall k hk
      rcases h3 hall k with hm | ⟨s, ⟨n, a1, rfl⟩, a2⟩
      · obtain ⟨⟨k', v⟩, a1, rfl⟩ := List.mem_map.1 hm
        exact ⟨v, a1⟩
      · exact absurd a2 (hk n a1)

example := demoClear.elim fun _ h => C104_clear_observed h demoExclusive

/-- **C104.** Then a `Clear` that has been called is never blocked: it takes its next step whenever it is scheduled. -/
theorem C104_clear_runs {m : Conf (G K V) (Op K V ⊕ ClearOp) (Res K V) (Pt K V ⊕ ClearPt)} {H : List (Ev (Op K V ⊕ ClearOp) (Res K V))}
    (h : progC.mach.Exec m H) (hx : Exclusive H) {i : Nat} (hi : Ev.inv i (.inr .clear) ∈ H) (hr : ∀ r, Ev.ret i r ∉ H) (c : Nat) :
    ∃ l m', progC.mach.next m i c = some (l, m') := by
  rcases progC.pending h hi hr with ⟨s, hs⟩ | ⟨r, hs⟩
  · cases pinv (P := prog) (Ex := fun _ _ _ => True) (abs := fun _ => ()) (Ok := Blank) ⟨by simp, by simp, by simp⟩ blank_zero (by simp)
      (fun g₀ m₁ H₁ i x g' r h0 h hq hx => ⟨(clear_blank g₀ m₁ H₁ i x g' r h0 h hq hx).1, by simp⟩) h hx with
    | normal H₀ g₀ H₁ m₁ hN hg hH =>
      exfalso
      by_cases h0 : HasInv H₀ i
      · obtain ⟨_, _, hd⟩ := hN.past.done i h0; rw [hs] at hd; simp at hd
      · have := hN.new i h0 (by simp)
        rw [hs] at this
        cases hp : m₁.pc i <;> simp [hp, Proc.liftX] at this
    | alone H₀ g₀ H₁ m₁ j x y hN hq hj hidle hrun hpi hH =>
      have hij : i = j := by
        by_contra hne
        by_cases h0 : HasInv H₀ i
        · obtain ⟨_, _, hd⟩ := hN.past.done i h0; rw [hs] at hd; simp at hd
        · have := hN.new i h0 (by simpa using fun h => hne h.symm)
          rw [hs] at this
          cases hp : m₁.pc i <;> simp [hp, Proc.liftX] at this
      subst hij
      have hc := clearing (quiet_mu hN.past.ok hN.exec hq).1 hrun
      cases y with
      | inr r => simp only at hpi; rw [hs] at hpi; simp at hpi
      | inl t =>
        simp only at hpi
        have hmu := hc.mu
        cases t <;> simp only at hmu <;> simp [progC, Prog.mach, Prog.withX, hpi, clearStep, hmu]
  · simp [Prog.mach, hs]

/-- A pending `Clear`. -/
theorem demoPending : ∃ m, (progC (K := Nat) (V := Nat)).mach.Exec m [.inv 1 (.inr .clear)] :=
  Mach.exists_exec _ [.inv 1 (.inr .clear), .run 1 0, .run 1 0] _ rfl

example : ∃ m l m', (progC (K := Nat) (V := Nat)).mach.Exec m [.inv 1 (.inr .clear)] ∧ progC.mach.next m 1 0 = some (l, m') := by
  obtain ⟨m, h⟩ := demoPending
  obtain ⟨l, m', h'⟩ := C104_clear_runs h (fun i x j o hi hj hne => by
    simp only [List.mem_singleton, Ev.inv.injEq] at hi hj; exact absurd (hj.1.trans hi.1.symm) hne) (i := 1) (by simp) (by simp) 0
  exact ⟨m, l, m', h, h'⟩

end Verif.XSync.MapConc

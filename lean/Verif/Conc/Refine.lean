import Verif.Conc.Prog
/-!
# Refinement between programs

If every step of a program `P` is matched by a step of the program `Q`, or by no step, then every history of `P` is a history of `Q`.
-/
namespace Verif.Conc

variable {G G' Op Res S S' : Type}

/-- A step of a call seen by the machine. -/
theorem Prog.leads_step {Q : Prog G Op Res S} {m : Conf G Op Res S} {H : List (Ev Op Res)} {i c : Nat} {op : Op} {s : S}
    {g' : G} {x : S ⊕ Res} (hv : m.view i = some (op, .inl s)) (hs : Q.step m.g i op s c = some (g', x)) :
    ∃ m' : Conf G Op Res S, Q.mach.Leads m H m' H ∧ m'.g = g' ∧ m'.view = upd m.view i (some (op, x)) ∧ (∀ j, j ≠ i → m'.pc j = m.pc j) ∧
      ∀ o r, m'.pc i ≠ .done o r := by
  have hp : m.pc i = .at op s := by
    simp only [Conf.view] at hv
    cases hq : m.pc i <;> simp [hq, Proc.view] at hv
    rw [hv.1, hv.2]
  cases x with
  | inl s' =>
    refine ⟨⟨g', upd m.pc i (.at op s')⟩, .tau (j := i) (c := c) ?_ .refl, rfl, view_upd .., fun j hj => upd_ne _ _ hj, by simp⟩
    simp [Prog.mach, hp, hs]
  | inr r =>
    refine ⟨⟨g', upd m.pc i (.ret op r)⟩, .tau (j := i) (c := c) ?_ .refl, rfl, view_upd .., fun j hj => upd_ne _ _ hj, by simp⟩
    simp [Prog.mach, hp, hs]

theorem Prog.exec_step {Q : Prog G Op Res S} {m : Conf G Op Res S} {H : List (Ev Op Res)} (h : Q.mach.Exec m H) {i c : Nat} {op : Op} {s : S}
    {g' : G} {x : S ⊕ Res} (hv : m.view i = some (op, .inl s)) (hs : Q.step m.g i op s c = some (g', x)) :
    ∃ m' : Conf G Op Res S, Q.mach.Exec m' H ∧ m'.g = g' ∧ m'.view = upd m.view i (some (op, x)) ∧ (∀ j, j ≠ i → m'.pc j = m.pc j) ∧
      ∀ o r, m'.pc i ≠ .done o r := by
  obtain ⟨m', h1, h2⟩ := Prog.leads_step (Q := Q) (H := H) hv hs
  exact ⟨m', h1.exec h, h2⟩

/-- An event of another program: a result may be translated, or not be reported at all. -/
def Ev.seen {Res' : Type} (fr : Res → Option Res') : Ev Op Res → Option (Ev Op Res')
  | .inv i op => some (.inv i op)
  | .ret i r => (fr r).map (.ret i)

/-- Forward simulation with translated results: a call with a result `r` with `fr r = none` is one that does not return in `Q`. `Rel`
relates the shared states and the views of the calls. -/
theorem Prog.refineRes {Res' : Type} (P : Prog G Op Res S) (Q : Prog G' Op Res' S') (fr : Res → Option Res')
    (Rel : G → G' → View Op Res S → View Op Res' S' → Prop)
    (h0 : Rel P.init Q.init (fun _ => none) (fun _ => none))
    (hnone : ∀ M g v w i, Rel M g v w → v i = none → w i = none)
    (hres : ∀ M g v w i op r r', Rel M g v w → v i = some (op, .inr r) → fr r = some r' → w i = some (op, .inr r'))
    (hinv : ∀ M (m' : Conf G' Op Res' S') H v i op, Q.mach.Exec m' H → Rel M m'.g v m'.view → v i = none →
      Rel M m'.g (upd v i (some (op, .inl (P.begin op)))) (upd m'.view i (some (op, .inl (Q.begin op)))))
    (hstep : ∀ M (m' : Conf G' Op Res' S') H v i op t c M' x, Q.mach.Exec m' H → Rel M m'.g v m'.view → v i = some (op, .inl t) →
      P.step M i op t c = some (M', x) →
      Rel M' m'.g (upd v i (some (op, x))) m'.view ∨
      ∃ s c' g' x', m'.view i = some (op, .inl s) ∧ Q.step m'.g i op s c' = some (g', x') ∧
        Rel M' g' (upd v i (some (op, x))) (upd m'.view i (some (op, x'))))
    {m : Conf G Op Res S} {H : List (Ev Op Res)} (h : P.mach.Exec m H) :
    ∃ m' : Conf G' Op Res' S', Q.mach.Exec m' (H.filterMap (Ev.seen fr)) ∧ Rel m.g m'.g m.view m'.view := by
  suffices ∃ m' : Conf G' Op Res' S', Q.mach.Exec m' (H.filterMap (Ev.seen fr)) ∧ Rel m.g m'.g m.view m'.view ∧ ∀ i op r, m'.pc i = .done op r → ∃ r₀, m.pc i = .done op r₀ by
    obtain ⟨m', h1, h2, _⟩ := this
    exact ⟨m', h1, h2⟩
  have key : ∀ (m m₁ : Conf G Op Res S) (l : Option (Ev Op Res)) (H : List (Ev Op Res')) (m' : Conf G' Op Res' S'), Q.mach.Exec m' H →
      Rel m.g m'.g m.view m'.view → (∀ i op r, m'.pc i = .done op r → ∃ r₀, m.pc i = .done op r₀) → P.mach.Step m l m₁ →
      ∃ m₁' : Conf G' Op Res' S', Q.mach.Exec m₁' (H ++ l.toList.filterMap (Ev.seen fr)) ∧ Rel m₁.g m₁'.g m₁.view m₁'.view ∧
        ∀ i op r, m₁'.pc i = .done op r → ∃ r₀, m₁.pc i = .done op r₀ := by
    intro m m₁ l H m' he hR hd hs
    cases hs with
    | inv i op _ hi =>
      simp only [Prog.mach] at hi
      split at hi
      · rename_i hpc
        simp only [Option.some.injEq] at hi
        subst hi
        have hv : m.view i = none := by simp [Conf.view, hpc, Proc.view]
        have hw : m'.pc i = .idle := by
          have := hnone _ _ _ _ i hR hv
          simp only [Conf.view] at this
          cases hq : m'.pc i <;> simp [hq, Proc.view] at this
          rfl
        refine ⟨⟨m'.g, upd m'.pc i (.at op (Q.begin op))⟩, .ev he (.inv _ _ _ _ (by simp [Prog.mach, hw])), ?_, ?_⟩
        · rw [view_upd, view_upd]
          exact hinv _ _ _ _ i op he hR hv
        · intro j o r hj
          by_cases hji : j = i
          · subst hji; simp at hj
          · simp only [upd_ne _ _ hji] at hj ⊢
            exact hd j o r hj
      · simp at hi
    | run i c _ _ hn =>
      simp only [Prog.mach] at hn
      cases hpc : m.pc i with
      | idle => simp [hpc] at hn
      | done _ _ => simp [hpc] at hn
      | «at» op t =>
        simp only [hpc] at hn
        cases hst : P.step m.g i op t c with
        | none => simp [hst] at hn
        | some y =>
          obtain ⟨M', x⟩ := y
          have hv : m.view i = some (op, .inl t) := by simp [Conf.view, hpc, Proc.view]
          have hm₁ : l = none ∧ m₁.g = M' ∧ m₁.view = upd m.view i (some (op, x)) ∧ ∀ j, j ≠ i → m₁.pc j = m.pc j := by
            cases x <;> simp only [hst, Option.some.injEq, Prod.mk.injEq] at hn <;> obtain ⟨rfl, rfl⟩ := hn <;>
              exact ⟨rfl, rfl, view_upd .., fun j hj => upd_ne _ _ hj⟩
          obtain ⟨rfl, hg, hvw, hpc'⟩ := hm₁
          have hdi : ∀ o r, m'.pc i ≠ .done o r := fun o r e => by obtain ⟨_, this⟩ := hd i o r e; rw [hpc] at this; simp at this
          rw [Option.toList_none, List.filterMap_nil, List.append_nil, hg, hvw]
          rcases hstep m.g m' H m.view i op t c M' x he hR hv hst with h1 | ⟨s, c', g', x', h1, h2, h3⟩
          · refine ⟨m', he, h1, fun j o r hj => ?_⟩
            by_cases hji : j = i
            · subst hji; exact absurd hj (hdi o r)
            · rw [hpc' j hji]; exact hd j o r hj
          · obtain ⟨m₂, h4, h5, h6, h7, h8⟩ := Q.exec_step he h1 h2
            refine ⟨m₂, h4, by rw [h5, h6]; exact h3, fun j o r hj => ?_⟩
            by_cases hji : j = i
            · subst hji; exact absurd hj (h8 o r)
            · rw [h7 j hji] at hj; rw [hpc' j hji]; exact hd j o r hj
      | ret op r =>
        simp only [hpc, Option.some.injEq, Prod.mk.injEq] at hn
        obtain ⟨rfl, rfl⟩ := hn
        have hv : m.view i = some (op, .inr r) := by simp [Conf.view, hpc, Proc.view]
        have e1 : (⟨m.g, upd m.pc i (.done op r)⟩ : Conf G Op Res S).view = m.view := by
          rw [view_upd]; funext j; by_cases hj : j = i
          · subst hj; simp [hv, Proc.view]
          · simp [upd_ne _ _ hj]
        cases hf : fr r with
        | none =>
          refine ⟨m', by simpa [Ev.seen, hf] using he, by rw [e1]; exact hR, ?_⟩
          intro j o r' hj
          by_cases hji : j = i
          · subst hji
            obtain ⟨_, hq⟩ := hd j o r' hj
            rw [hpc] at hq; simp at hq
          · simp only [upd_ne _ _ hji]
            exact hd j o r' hj
        | some r' =>
          have hw := hres _ _ _ _ i op r r' hR hv hf
          have hw' : m'.pc i = .ret op r' := by
            simp only [Conf.view] at hw
            cases hq : m'.pc i <;> simp [hq, Proc.view] at hw
            · rw [hw.1, hw.2]
            · obtain ⟨_, this⟩ := hd i _ _ hq; rw [hpc] at this; simp at this
          refine ⟨⟨m'.g, upd m'.pc i (.done op r')⟩, ?_, ?_, ?_⟩
          · have : Q.mach.Exec _ (H ++ [.ret i r']) := .ev he (.run _ i 0 _ _ (by simp [Prog.mach, hw']; rfl))
            simpa [Ev.seen, hf] using this
          · have e2 : (⟨m'.g, upd m'.pc i (.done op r')⟩ : Conf G' Op Res' S').view = m'.view := by
              rw [view_upd]; funext j; by_cases hj : j = i
              · subst hj; simp [hw, Proc.view]
              · simp [upd_ne _ _ hj]
            rw [e1, e2]; exact hR
          · intro j o r₁ hj
            by_cases hji : j = i
            · subst hji
              simp only [upd_same, Proc.done.injEq] at hj ⊢
              exact ⟨r, hj.1, rfl⟩
            · simp only [upd_ne _ _ hji] at hj ⊢
              exact hd j o r₁ hj
  induction h with
  | init => exact ⟨Q.mach.start, .init, h0, fun i op r h => by simp [Prog.mach] at h⟩
  | tau _ hs ih =>
    obtain ⟨m', h1, h2, h3⟩ := ih
    have := key _ _ _ _ m' h1 h2 h3 hs
    simpa using this
  | ev _ hs ih =>
    obtain ⟨m', h1, h2, h3⟩ := ih
    have := key _ _ _ _ m' h1 h2 h3 hs
    simpa only [List.filterMap_append, Option.toList_some] using this

/-- Forward simulation. `Rel` relates the shared states and the views of the calls. -/
theorem Prog.refine (P : Prog G Op Res S) (Q : Prog G' Op Res S') (Rel : G → G' → View Op Res S → View Op Res S' → Prop)
    (h0 : Rel P.init Q.init (fun _ => none) (fun _ => none))
    (hnone : ∀ M g v w i, Rel M g v w → v i = none → w i = none)
    (hres : ∀ M g v w i op r, Rel M g v w → v i = some (op, .inr r) → w i = some (op, .inr r))
    (hinv : ∀ M (m' : Conf G' Op Res S') H v i op, Q.mach.Exec m' H → Rel M m'.g v m'.view → v i = none →
      Rel M m'.g (upd v i (some (op, .inl (P.begin op)))) (upd m'.view i (some (op, .inl (Q.begin op)))))
    (hstep : ∀ M (m' : Conf G' Op Res S') H v i op t c M' x, Q.mach.Exec m' H → Rel M m'.g v m'.view → v i = some (op, .inl t) →
      P.step M i op t c = some (M', x) →
      Rel M' m'.g (upd v i (some (op, x))) m'.view ∨
      ∃ s c' g' x', m'.view i = some (op, .inl s) ∧ Q.step m'.g i op s c' = some (g', x') ∧
        Rel M' g' (upd v i (some (op, x))) (upd m'.view i (some (op, x'))))
    {m : Conf G Op Res S} {H : List (Ev Op Res)} (h : P.mach.Exec m H) :
    ∃ m' : Conf G' Op Res S', Q.mach.Exec m' H ∧ Rel m.g m'.g m.view m'.view := by
  have := P.refineRes Q some Rel h0 hnone (fun M g v w i op r r' h1 h2 h3 => by
    simp only [Option.some.injEq] at h3; subst h3; exact hres M g v w i op r h1 h2) hinv hstep h
  have e : H.filterMap (Ev.seen some) = H := by
    have : (Ev.seen some : Ev Op Res → Option (Ev Op Res)) = some := by funext x; cases x <;> rfl
    rw [this, List.filterMap_some]
  rwa [e] at this

end Verif.Conc

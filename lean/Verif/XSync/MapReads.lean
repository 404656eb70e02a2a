import Verif.Conc.Crash
import Verif.XSync.MapConcEnds
/-!
# C132: calls of `xsync.Map` that wait for nobody

The program is that of `MapConc` (`xsync/map.go:94-520`, access by access, without `Clear`).
-/
namespace Verif.Conc

variable {G Op Res S : Type}

theorem Prog.step_cases {P : Prog G Op Res S} {m m' : Conf G Op Res S} {l : Option (Ev Op Res)} (hs : P.mach.Step m l m') :
    (∃ i op, l = some (.inv i op) ∧ m.view i = none ∧ m'.g = m.g ∧ m'.view = upd m.view i (some (op, .inl (P.begin op)))) ∨
    (∃ i op s c x, l = none ∧ m.view i = some (op, .inl s) ∧ P.step m.g i op s c = some (m'.g, x) ∧ m'.view = upd m.view i (some (op, x))) ∨
    ∃ i op r, l = some (.ret i r) ∧ m.view i = some (op, .inr r) ∧ m'.g = m.g ∧ m'.view = m.view := by
  cases hs with
  | inv i op _ he =>
    simp only [Prog.mach] at he
    split at he
    · rename_i hpc
      simp only [Option.some.injEq] at he
      subst he
      exact .inl ⟨i, op, rfl, by simp [Conf.view, hpc, Proc.view], rfl, view_upd _ _ _ _⟩
    · simp at he
  | run i c _ _ he =>
    simp only [Prog.mach] at he
    cases hpc : m.pc i with
    | idle => simp [hpc] at he
    | done _ _ => simp [hpc] at he
    | «at» op s =>
      simp only [hpc] at he
      cases hst : P.step m.g i op s c with
      | none => simp [hst] at he
      | some y =>
        obtain ⟨g', x⟩ := y
        cases x with
        | inl s' =>
          simp only [hst, Option.some.injEq, Prod.mk.injEq] at he
          obtain ⟨rfl, rfl⟩ := he
          exact .inr (.inl ⟨i, op, s, c, .inl s', rfl, by simp [Conf.view, hpc, Proc.view], hst, view_upd _ _ _ _⟩)
        | inr r =>
          simp only [hst, Option.some.injEq, Prod.mk.injEq] at he
          obtain ⟨rfl, rfl⟩ := he
          exact .inr (.inl ⟨i, op, s, c, .inr r, rfl, by simp [Conf.view, hpc, Proc.view], hst, view_upd _ _ _ _⟩)
    | ret op r =>
      simp only [hpc, Option.some.injEq, Prod.mk.injEq] at he
      obtain ⟨rfl, rfl⟩ := he
      refine .inr (.inr ⟨i, op, r, rfl, by simp [Conf.view, hpc, Proc.view], rfl, ?_⟩)
      rw [view_upd]
      funext j
      by_cases hj : j = i
      · subst hj; simp [Conf.view, hpc, Proc.view]
      · simp [upd_ne _ _ hj]

theorem Mach.Onward.exec {M : Type} {P : Mach M Op Res} {m m' : M} {H H' : List (Ev Op Res)} (h : P.Onward m H m' H') (he : P.Exec m H) : P.Exec m' H' :=
  (h.keeps (Q := fun _ => True) (fun _ _ _ _ _ _ _ => trivial) he trivial).1

theorem Mach.Onward.sub {M : Type} {P : Mach M Op Res} {m m' : M} {H H' : List (Ev Op Res)} (h : P.Onward m H m' H') : ∀ e ∈ H, e ∈ H' := by
  induction h with
  | refl => exact fun _ h => h
  | step _ _ ih => exact fun e he => ih e (List.mem_append_left _ he)

theorem Mach.exists_onward_state {M : Type} (P : Mach M Op Res) (as₁ as₂ : List (Act Op)) (H₁ H₂ : List (Ev Op Res)) (Q : M → Prop)
    (h : (P.play (P.start, []) as₁).elim False (fun x => x.2 = H₁ ∧ (P.play x as₂).elim False (fun y => y.2 = H₂ ∧ Q y.1))) :
    ∃ m m', P.Exec m H₁ ∧ P.Onward m H₁ m' H₂ ∧ Q m' := by
  cases hx : P.play (P.start, []) as₁ with
  | none => rw [hx] at h; exact h.elim
  | some x =>
    rw [hx] at h
    obtain ⟨rfl, h⟩ := h
    cases hy : P.play x as₂ with
    | none => rw [hy] at h; exact h.elim
    | some y =>
      rw [hy] at h
      obtain ⟨rfl, hq⟩ := h
      exact ⟨x.1, y.1, P.exec_of_play as₁ x hx, P.play_onward as₂ _ _ _ hy, hq⟩

/-- `P.Takes i m H n m' H'`: an execution leads from `m`, with history `H`, to `m'`, with history `H'`, in which the call `i` takes `n` steps. -/
inductive Mach.Takes {M : Type} (P : Mach M Op Res) (i : Nat) : M → List (Ev Op Res) → Nat → M → List (Ev Op Res) → Prop where
  | refl {m : M} {H : List (Ev Op Res)} : Mach.Takes P i m H 0 m H
  | inv {m m' m'' : M} {H H' : List (Ev Op Res)} {n j : Nat} {op : Op} : P.invoke m j op = some m' → Mach.Takes P i m' (H ++ [.inv j op]) n m'' H' →
      Mach.Takes P i m H n m'' H'
  | other {m m' m'' : M} {H H' : List (Ev Op Res)} {n j c : Nat} {l : Option (Ev Op Res)} : j ≠ i → P.next m j c = some (l, m') →
      Mach.Takes P i m' (H ++ l.toList) n m'' H' → Mach.Takes P i m H n m'' H'
  | own {m m' m'' : M} {H H' : List (Ev Op Res)} {n c : Nat} {l : Option (Ev Op Res)} : P.next m i c = some (l, m') →
      Mach.Takes P i m' (H ++ l.toList) n m'' H' → Mach.Takes P i m H (n + 1) m'' H'

theorem Mach.Takes.onward {M : Type} {P : Mach M Op Res} {i : Nat} {m m' : M} {H H' : List (Ev Op Res)} {n : Nat} (h : P.Takes i m H n m' H') :
    P.Onward m H m' H' := by
  induction h with
  | refl => exact .refl
  | inv he _ ih => exact .step (.inv _ _ _ _ he) ih
  | other _ he _ ih => exact .step (.run _ _ _ _ _ he) ih
  | own he _ ih => exact .step (.run _ _ _ _ _ he) ih

/-- The call takes as many steps as the schedule says. -/
def steps (i : Nat) : List (Act Op) → Nat
  | [] => 0
  | .inv _ _ :: as => steps i as
  | .run j _ :: as => (if j = i then 1 else 0) + steps i as

theorem Mach.play_takes {M : Type} (P : Mach M Op Res) (i : Nat) : ∀ (as : List (Act Op)) (x y : M × List (Ev Op Res)), P.play x as = some y →
    P.Takes i x.1 x.2 (steps i as) y.1 y.2 := by
  intro as
  induction as with
  | nil => intro x y h; simp only [Mach.play, Option.some.injEq] at h; subst h; exact .refl
  | cons a as ih =>
    intro x y h
    cases a with
    | inv j op =>
      simp only [Mach.play] at h
      split at h
      · simp at h
      · rename_i m' he
        exact .inv he (ih (m', _) y h)
    | run j c =>
      have key : ∀ l m', P.next x.1 j c = some (l, m') → P.Takes i m' (x.2 ++ l.toList) (steps i as) y.1 y.2 →
          P.Takes i x.1 x.2 (steps i (Act.run j c :: as)) y.1 y.2 := by
        intro l m' he ht
        by_cases e : j = i
        · subst e; simp only [steps, if_true, Nat.add_comm 1]; exact .own he ht
        · simp only [steps, e, if_false, Nat.zero_add]; exact .other e he ht
      simp only [Mach.play] at h
      split at h
      · simp at h
      · rename_i m' he
        refine key none m' he ?_
        rw [Option.toList_none, List.append_nil]
        exact ih (m', _) y h
      · rename_i e m' he
        exact key (some e) m' he (ih (m', _) y h)

theorem Mach.exists_takes {M : Type} (P : Mach M Op Res) (i : Nat) (as₁ as₂ : List (Act Op)) (H₁ H₂ : List (Ev Op Res))
    (h : (P.play (P.start, []) as₁).elim False (fun x => x.2 = H₁ ∧ (P.play x as₂).elim False (fun y => y.2 = H₂))) :
    ∃ m m', P.Exec m H₁ ∧ P.Takes i m H₁ (steps i as₂) m' H₂ := by
  cases hx : P.play (P.start, []) as₁ with
  | none => rw [hx] at h; exact h.elim
  | some x =>
    rw [hx] at h
    obtain ⟨rfl, h⟩ := h
    cases hy : P.play x as₂ with
    | none => rw [hy] at h; exact h.elim
    | some y =>
      rw [hy] at h
      obtain rfl := h
      exact ⟨x.1, y.1, P.exec_of_play as₁ x hx, P.play_takes i as₂ x y hy⟩

end Verif.Conc

namespace Verif.XSync.MapConc
open Verif.Conc Verif.Go

variable {K V : Type} [DecidableEq K] [DecidableEq V]

/-! ## Specification -/

/-- The operations that can add a key. -/
def Op.mayAdd : Op K V → Prop
  | .store _ _ | .loadOrStore _ _ | .computeIfAbsent _ _ => True
  | _ => False

/-- The operations that wait for nobody. -/
def Op.reads : Op K V → Prop
  | .load _ | .loadAndDelete _ | .delete _ | .range _ => True
  | _ => False

/-- A `Range` has been made and has returned, and every call that can add a key had returned before this `Range` began. -/
def Settled (H : List (Ev (Op K V) (Res K V))) : Prop := ∃ i f H₁ H₂, H = H₁ ++ Ev.inv i (.range f) :: H₂ ∧ (∃ r, Ev.ret i r ∈ H₂) ∧
  ∀ j op, op.mayAdd → Ev.inv j op ∈ H → Ev.inv j op ∈ H₁ ∧ ∃ r, Ev.ret j r ∈ H₁

/-! ## Proofs -/

/-- Abbreviation. -/
abbrev Cm (K V : Type) := Conf (G K V) (Op K V) (Res K V) (Pt K V)
/-- Abbreviation. -/
abbrev Hm (K V : Type) := List (Ev (Op K V) (Res K V))

omit [DecidableEq V] in
theorem setDirty_amended {g g' : G K V} {k : K} {e : Nat} (h : g.setDirty k e = some g') : g'.amended = g.amended := by
  simp only [G.setDirty] at h
  split at h
  · simp at h
  · simp only [Option.some.injEq] at h; rw [← h]

/-- What steps do to `read.amended`: only a call that adds a key sets it. -/
theorem amended_step {g g' : G K V} {i c : Nat} {op : Op K V} {s : Pt K V} {x : Pt K V ⊕ Res K V} (h : step g i op s c = some (g', x)) (hg : g.amended = false) :
    g'.amended = false ∨ (∃ rm, s = .amend rm) := by
  cases s with
  | amend rm => exact .inr ⟨rm, rfl⟩
  | locked =>
    left
    simp only [step, lockedStep, Option.some.injEq, Prod.mk.injEq] at h
    obtain ⟨rfl, -⟩ := h
    cases op <;> simp only <;> (repeat' split) <;> simp_all
  | unexp e =>
    left
    simp only [step] at h
    split at h
    · split at h
      · simp at h
      · split at h
        · simp only [Option.some.injEq, Prod.mk.injEq] at h; rw [← h.1]; exact hg
        · rename_i hd
          simp only [Option.some.injEq, Prod.mk.injEq] at h
          rw [← h.1, setDirty_amended hd]; exact hg
    · simp only [Option.some.injEq, Prod.mk.injEq] at h; rw [← h.1]; exact hg
  | add v =>
    left
    simp only [step] at h
    split at h
    · simp at h
    · split at h
      · simp only [Option.some.injEq, Prod.mk.injEq] at h; rw [← h.1]; exact hg
      · rename_i hd
        simp only [Option.some.injEq, Prod.mk.injEq] at h
        rw [← h.1]; exact (setDirty_amended hd).trans hg
  | buildE rm rest k e =>
    left
    simp only [step] at h
    split at h
    · simp only [Option.some.injEq, Prod.mk.injEq] at h; rw [← h.1]; exact hg
    · simp only [Option.some.injEq, Prod.mk.injEq] at h; rw [← h.1]; exact hg
    · split at h
      · simp only [Option.some.injEq, Prod.mk.injEq] at h; rw [← h.1]; exact hg
      · rename_i hd
        simp only [Option.some.injEq, Prod.mk.injEq] at h
        rw [← h.1, setDirty_amended hd]; exact hg
  | _ =>
    left
    simp only [step, G.setP, G.promoted] at h
    revert h
    (repeat' split) <;> intro h <;> simp_all <;> (try (obtain ⟨rfl, -⟩ := h)) <;> (try simp_all)

omit [DecidableEq K] [DecidableEq V] in
theorem adds_iff {op : Op K V} : op.mayAdd ↔ op.adds = true := by cases op <;> simp [Op.mayAdd, Op.adds]

/-- No call that can add a key is running. -/
def NoAdd (v : Vw K V) : Prop := ∀ j op s, v j = some (op, .inl s) → op.adds = false

/-- As long as no call that can add a key is running, the read map stays complete. -/
theorem amended_stays {m m' : Cm K V} {H : Hm K V} {l : Option (Ev (Op K V) (Res K V))} (h : prog.mach.Exec m H) (hs : prog.mach.Step m l m')
    (hn : NoAdd m.view) (hm : m.g.amended = false) : m'.g.amended = false := by
  rcases Prog.step_cases hs with ⟨_, _, _, _, hg, _⟩ | ⟨i, op, s, c, x, _, hv, hst, _⟩ | ⟨_, _, _, _, _, hg, _⟩
  · rw [hg]; exact hm
  · rcases amended_step hst hm with h1 | ⟨rm, rfl⟩
    · exact h1
    · obtain ⟨gh, _, _, hI⟩ := simulation h
      have := hI.floc _ _ _ hv
      simp only [FLoc] at this
      rw [hn _ _ _ hv] at this
      simp at this
  · rw [hg]; exact hm

/-- The points of a `Range` from which on the read map is complete. -/
def Pt.past : Pt K V ⊕ Res K V → Prop
  | .inr _ => True
  | .inl (.unlock _) => True
  | .inl (.iter _ _) => True
  | .inl (.icall _ _ _ _) => True
  | _ => False

/-- The points of a `Range`. -/
def Pt.ofRange : Pt K V → Prop
  | .start | .lock | .locked | .rpromote | .unlock (.iter _) | .iter _ _ | .icall _ _ _ _ => True
  | _ => False

theorem range_step {g g' : G K V} {i c : Nat} {f : K → V → Nat → Bool} {s : Pt K V} {x : Pt K V ⊕ Res K V}
    (h : step g i (.range f) s c = some (g', x)) (hs : s.ofRange) :
    (∀ s', x = .inl s' → s'.ofRange) ∧ (Pt.past x → Pt.past (.inl s : Pt K V ⊕ Res K V) ∨ g'.amended = false) := by
  cases s with
  | start =>
    simp only [step, startStep, Option.some.injEq, Prod.mk.injEq] at h
    obtain ⟨rfl, h⟩ := h
    split at h
    · subst h; simp [Pt.past, Pt.ofRange]
    · rename_i hb
      subst h
      simp only [Sum.inl.injEq, forall_eq', Pt.ofRange, true_and]
      exact fun _ => .inr (by simpa using hb)
  | lock =>
    simp only [step] at h
    split at h
    · simp at h
    · simp only [Option.some.injEq, Prod.mk.injEq] at h
      obtain ⟨rfl, rfl⟩ := h
      simp [Pt.past, Pt.ofRange]
  | locked =>
    simp only [step, lockedStep, Option.some.injEq, Prod.mk.injEq] at h
    obtain ⟨rfl, h⟩ := h
    split at h
    · subst h; simp [Pt.past, Pt.ofRange]
    · rename_i hb
      subst h
      simp only [Sum.inl.injEq, forall_eq', Pt.ofRange, true_and]
      exact fun _ => .inr (by simpa using hb)
  | rpromote =>
    simp only [step, Option.some.injEq, Prod.mk.injEq] at h
    obtain ⟨rfl, rfl⟩ := h
    simp [Pt.ofRange, G.promoted]
  | unlock k =>
    simp only [step, Option.some.injEq, Prod.mk.injEq] at h
    obtain ⟨rfl, rfl⟩ := h
    cases k <;> simp_all [Pt.ofRange, Cont.go, Pt.past]
  | iter todo vis =>
    refine ⟨?_, fun _ => .inl trivial⟩
    simp only [step] at h
    revert h
    (repeat' split) <;> intro h <;> simp at h <;> (try (obtain ⟨rfl, rfl⟩ := h)) <;> simp_all [Pt.ofRange]
  | icall todo vis k v =>
    refine ⟨?_, fun _ => .inl trivial⟩
    simp only [step, Option.some.injEq, Prod.mk.injEq] at h
    obtain ⟨rfl, rfl⟩ := h
    intro s' hs'
    split at hs' <;> simp at hs'
    subst hs'; trivial
  | _ => simp [Pt.ofRange] at hs

theorem range_points {m : Cm K V} {H : Hm K V} (h : prog.mach.Exec m H) : ∀ i f s, m.view i = some (.range f, .inl s) → s.ofRange := by
  refine prog.induct (fun _ v _ => ∀ i f s, v i = some (.range f, .inl s) → s.ofRange) (by simp) ?_ ?_ ?_ h
  · intro g v H i op hI _ j f s hj
    by_cases e : j = i
    · subst e
      simp only [upd_same, Option.some.injEq, Prod.mk.injEq, Sum.inl.injEq] at hj
      rw [← hj.2]; trivial
    · rw [upd_ne _ _ e] at hj; exact hI j f s hj
  · intro g v H i op s c g' x hI hv hst j f s' hj
    by_cases e : j = i
    · subst e
      simp only [upd_same, Option.some.injEq, Prod.mk.injEq] at hj
      obtain ⟨rfl, rfl⟩ := hj
      exact (range_step hst (hI _ _ _ hv)).1 _ rfl
    · rw [upd_ne _ _ e] at hj; exact hI j f s' hj
  · intro g v H i op r hI _; exact hI

/-- The calls that can add a key have returned in `H₁`. -/
def AddsIn (H₁ H : Hm K V) : Prop := ∀ j op, op.mayAdd → Ev.inv j op ∈ H → Ev.inv j op ∈ H₁ ∧ ∃ r, Ev.ret j r ∈ H₁

theorem noAdd_of {m : Cm K V} {H : Hm K V} (h : prog.mach.Exec m H) (hH : ∀ j op, op.mayAdd → Ev.inv j op ∈ H → ∃ r, Ev.ret j r ∈ H) : NoAdd m.view := by
  intro j op s hv
  cases ha : op.adds with
  | false => rfl
  | true =>
    obtain ⟨r, hr⟩ := hH j op (adds_iff.mpr ha) ((((prog).hist h).1 j op).mpr ⟨_, hv⟩)
    obtain ⟨op', hv'⟩ := ((prog).hist h).2 j r hr
    rw [hv] at hv'
    simp at hv'

theorem append_singleton_eq {α : Type} {H H₁ H₂ : List α} {e x : α} (h : H ++ [e] = H₁ ++ x :: H₂) :
    (H₂ = [] ∧ x = e ∧ H₁ = H) ∨ ∃ H₂', H₂ = H₂' ++ [e] ∧ H = H₁ ++ x :: H₂' := by
  rcases List.eq_nil_or_concat H₂ with rfl | ⟨l, y, rfl⟩
  · left
    have := List.append_inj' h rfl
    simp only [List.cons.injEq, and_true] at this
    exact ⟨rfl, this.2.symm, this.1.symm⟩
  · right
    have h' : H ++ [e] = (H₁ ++ x :: l) ++ [y] := by rw [h]; simp
    have := List.append_inj' h' rfl
    simp only [List.cons.injEq, and_true] at this
    exact ⟨l, by rw [this.2]; simp, this.1⟩

theorem settles {m : Cm K V} {H : Hm K V} (h : prog.mach.Exec m H) : ∀ i f H₁ H₂, H = H₁ ++ Ev.inv i (.range f) :: H₂ → AddsIn H₁ H →
    ∀ op x, m.view i = some (op, x) → Pt.past x → m.g.amended = false := by
  have key : ∀ {m m' : Cm K V} {H : Hm K V} {l : Option (Ev (Op K V) (Res K V))}, prog.mach.Exec m H → prog.mach.Step m l m' →
      (∀ i f H₁ H₂, H = H₁ ++ Ev.inv i (.range f) :: H₂ → AddsIn H₁ H → ∀ op x, m.view i = some (op, x) → Pt.past x → m.g.amended = false) →
      ∀ i f H₁ H₂, H ++ l.toList = H₁ ++ Ev.inv i (.range f) :: H₂ → AddsIn H₁ (H ++ l.toList) → ∀ op x, m'.view i = some (op, x) → Pt.past x → m'.g.amended = false := by
    intro m m' H l h hs ih i f H₁ H₂ hH hA op x hv hx
    have he := Mach.exec_snoc h hs
    have hA' : AddsIn H₁ H := fun j o ho hj => hA j o ho (List.mem_append_left _ hj)
    rcases Prog.step_cases hs with ⟨j, o, rfl, hvj, hg, hv'⟩ | ⟨j, o, s, c, y, rfl, hvj, hst, hv'⟩ | ⟨j, o, r, rfl, hvj, hg, hv'⟩
    · rcases append_singleton_eq hH with ⟨rfl, h1, rfl⟩ | ⟨H₂', rfl, h1⟩
      · simp only [Ev.inv.injEq] at h1
        obtain ⟨rfl, rfl⟩ := h1
        rw [hv', upd_same] at hv
        simp only [Option.some.injEq, Prod.mk.injEq] at hv
        rw [← hv.2] at hx
        exact absurd hx (by simp [Pt.past, prog])
      · have hne : i ≠ j := by
          rintro rfl
          obtain ⟨z, hz⟩ := (((prog).hist h).1 i (.range f)).mp (by rw [h1]; simp)
          rw [hvj] at hz; simp at hz
        rw [hv', upd_ne _ _ hne] at hv
        rw [hg]
        exact ih i f H₁ H₂' h1 hA' op x hv hx
    · simp only [Option.toList_none, List.append_nil] at hH hA
      have hno : NoAdd m.view := noAdd_of h fun j o ho hj => by
        obtain ⟨_, r, hr⟩ := hA j o ho hj
        exact ⟨r, by rw [hH]; exact List.mem_append_left _ hr⟩
      by_cases hij : i = j
      · subst hij
        obtain ⟨z, hz⟩ := (((prog).hist h).1 i (.range f)).mp (by rw [hH]; simp)
        rw [hvj] at hz
        simp only [Option.some.injEq, Prod.mk.injEq] at hz
        obtain ⟨rfl, -⟩ := hz
        rw [hv', upd_same] at hv
        simp only [Option.some.injEq, Prod.mk.injEq] at hv
        obtain ⟨rfl, rfl⟩ := hv
        rcases (range_step hst (range_points h _ _ _ hvj)).2 hx with h2 | h2
        · exact amended_stays h hs hno (ih i f H₁ H₂ hH hA _ _ hvj h2)
        · exact h2
      · rw [hv', upd_ne _ _ hij] at hv
        exact amended_stays h hs hno (ih i f H₁ H₂ hH hA op x hv hx)
    · rw [hv'] at hv
      rw [hg]
      rcases append_singleton_eq hH with ⟨rfl, h1, rfl⟩ | ⟨H₂', rfl, h1⟩
      · simp at h1
      · exact ih i f H₁ H₂' h1 hA' op x hv hx
  induction h with
  | init => intro i f H₁ H₂ hH; simp at hH
  | tau he hs ih => have := key he hs ih; simpa using this
  | ev he hs ih => exact key he hs ih

theorem Settled.state {m : Cm K V} {H : Hm K V} (h : prog.mach.Exec m H) (hS : Settled H) : m.g.amended = false ∧ NoAdd m.view := by
  obtain ⟨i, f, H₁, H₂, hH, ⟨r, hr⟩, hA⟩ := hS
  obtain ⟨op, hv⟩ := ((prog).hist h).2 i r (by rw [hH]; simp [hr])
  refine ⟨settles h i f H₁ H₂ hH hA op _ hv trivial, noAdd_of h fun j o ho hj => ?_⟩
  obtain ⟨_, r, hr⟩ := hA j o ho hj
  exact ⟨r, by rw [hH]; exact List.mem_append_left _ hr⟩

/-- The points of the calls that wait for nobody. -/
def Pt.free : Pt K V → Prop
  | .start | .eload _ | .del _ | .delCas _ _ | .iter _ _ | .icall _ _ _ _ => True
  | _ => False

theorem reads_step {g g' : G K V} {i c : Nat} {op : Op K V} {s s' : Pt K V} (h : step g i op s c = some (g', .inl s')) (hg : g.amended = false)
    (ho : op.reads) (hs : s.free) : s'.free := by
  cases s with
  | start =>
    simp only [step, Option.some.injEq, Prod.mk.injEq] at h
    obtain ⟨-, h⟩ := h
    cases op <;> simp only [startStep, hg] at h <;> (try (simp [Op.reads] at ho; done)) <;> (revert h; (repeat' split) <;> intro h <;> simp_all) <;> subst h <;> trivial
  | eload e => simp [step] at h
  | del e =>
    simp only [step] at h
    split at h <;> simp at h
    rw [← h.2]; trivial
  | delCas e p =>
    simp only [step] at h
    split at h <;> simp at h
    rw [← h.2]; trivial
  | iter todo vis =>
    simp only [step] at h
    revert h
    (repeat' split) <;> intro h <;> simp at h <;> rw [← h.2] <;> trivial
  | icall todo vis k v =>
    simp only [step] at h
    split at h
    · simp only [Option.some.injEq, Prod.mk.injEq] at h
      obtain ⟨-, h⟩ := h
      split at h <;> simp at h
      rw [← h]; trivial
    · simp at h
  | _ => simp [Pt.free] at hs

/-- What holds after a settled history as long as no call that can add a key begins. -/
theorem onward_free {m m' : Cm K V} {H H' : Hm K V} (h : prog.mach.Exec m H) (ho : prog.mach.Onward m H m' H')
    (ha : m.g.amended = false) (hn : NoAdd m.view) (old : Nat → Prop) (hf : ∀ j op s, ¬ old j → op.reads → m.view j = some (op, .inl s) → s.free)
    (hnew : ∀ j op, op.mayAdd → Ev.inv j op ∈ H' → Ev.inv j op ∈ H) :
    ∀ j op s, ¬ old j → op.reads → m'.view j = some (op, .inl s) → s.free := by
  induction ho with
  | refl => exact hf
  | @step m m₁ m' H H' l hs ho ih =>
    have he := Mach.exec_snoc h hs
    have hsub := ho.sub
    refine ih he (amended_stays h hs hn ha) ?_ ?_ ?_
    · intro j op s hv
      rcases Prog.step_cases hs with ⟨i, o, rfl, hvi, hg, hv'⟩ | ⟨i, o, t, c, y, rfl, hvi, hst, hv'⟩ | ⟨i, o, r, rfl, hvi, hg, hv'⟩
      · rw [hv'] at hv
        by_cases e : j = i
        · subst e
          simp only [upd_same, Option.some.injEq, Prod.mk.injEq] at hv
          obtain ⟨rfl, -⟩ := hv
          cases hadd : o.adds with
          | false => rfl
          | true =>
            have := hnew j o (adds_iff.mpr hadd) (hsub _ (by simp))
            obtain ⟨z, hz⟩ := (((prog).hist h).1 j o).mp this
            rw [hvi] at hz; simp at hz
        · rw [upd_ne _ _ e] at hv; exact hn _ _ _ hv
      · rw [hv'] at hv
        by_cases e : j = i
        · subst e
          simp only [upd_same, Option.some.injEq, Prod.mk.injEq] at hv
          obtain ⟨rfl, -⟩ := hv
          exact hn _ _ _ hvi
        · rw [upd_ne _ _ e] at hv; exact hn _ _ _ hv
      · rw [hv'] at hv; exact hn _ _ _ hv
    · intro j op s hj hr hv
      rcases Prog.step_cases hs with ⟨i, o, rfl, hvi, hg, hv'⟩ | ⟨i, o, t, c, y, rfl, hvi, hst, hv'⟩ | ⟨i, o, r, rfl, hvi, hg, hv'⟩
      · rw [hv'] at hv
        by_cases e : j = i
        · subst e
          simp only [upd_same, Option.some.injEq, Prod.mk.injEq, Sum.inl.injEq] at hv
          rw [← hv.2]; trivial
        · rw [upd_ne _ _ e] at hv; exact hf _ _ _ hj hr hv
      · rw [hv'] at hv
        by_cases e : j = i
        · subst e
          simp only [upd_same, Option.some.injEq, Prod.mk.injEq] at hv
          obtain ⟨rfl, rfl⟩ := hv
          exact reads_step hst ha hr (hf _ _ _ hj hr hvi)
        · rw [upd_ne _ _ e] at hv; exact hf _ _ _ hj hr hv
      · rw [hv'] at hv; exact hf _ _ _ hj hr hv
    · intro j op hop hj
      exact List.mem_append_left _ (hnew j op hop hj)

variable {m m' : Cm K V} {H H' : Hm K V}

/-- **C132.** After a `Range`, as long as no call is in progress that can add a key: a `Load`, `LoadAndDelete`, `Delete` or `Range` that has begun and has not
returned can always go on, whatever the other calls are doing. -/
theorem C132_no_wait (h : prog.mach.Exec m H) (hS : Settled H) (ho : prog.mach.Onward m H m' H') (hnew : ∀ j op, op.mayAdd → Ev.inv j op ∈ H' → Ev.inv j op ∈ H)
    {i : Nat} {op : Op K V} (hr : op.reads) (hi : Ev.inv i op ∈ H') (hold : Ev.inv i op ∉ H) (hp : ∀ r, Ev.ret i r ∉ H') :
    ∃ x, prog.mach.next m' i 0 = some x := by
  have h' := ho.exec h
  obtain ⟨ha, hn⟩ := hS.state h
  obtain ⟨gh, _, _, hI⟩ := simulation h'
  rcases prog.pending h' hi hp with ⟨s, hpc⟩ | ⟨r, hpc⟩
  · have hv : m'.view i = some (op, .inl s) := by simp [Conf.view, hpc, Proc.view]
    have hf := onward_free h ho ha hn (fun j => ∃ o, Ev.inv j o ∈ H) (fun j o s hj _ hv => absurd ⟨o, (((prog).hist h).1 j o).mpr ⟨_, hv⟩⟩ hj) hnew i op s
      (by
        rintro ⟨o, hio⟩
        obtain ⟨y, hy⟩ := (((prog).hist h').1 i o).mp (ho.sub _ hio)
        rw [hv] at hy
        simp only [Option.some.injEq, Prod.mk.injEq] at hy
        rw [← hy.1] at hio
        exact hold hio) hr hv
    obtain ⟨⟨g', y⟩, hy⟩ := enabled hI hv fun hl => by subst hl; simp [Pt.free] at hf
    simp only [Prog.mach, hpc, prog, hy]
    cases y <;> simp
  · simp [Prog.mach, hpc]

/-- **C132.** So, if some calls (those with `stopped`) stop for any time, at any of their points, with or without the lock, and nothing else moves any more, all
these calls have returned. -/
theorem C132_slow (h : prog.mach.Exec m H) (hS : Settled H) (ho : prog.mach.Onward m H m' H') (hnew : ∀ j op, op.mayAdd → Ev.inv j op ∈ H' → Ev.inv j op ∈ H)
    (stopped : Nat → Prop) (hs : ∀ j, ¬ stopped j → ∀ c, prog.mach.next m' j c = none)
    {i : Nat} {op : Op K V} (hr : op.reads) (hi : Ev.inv i op ∈ H') (hold : Ev.inv i op ∉ H) (hni : ¬ stopped i) : ∃ r, Ev.ret i r ∈ H' := by
  refine Classical.byContradiction fun hp => ?_
  obtain ⟨x, hx⟩ := C132_no_wait h hS ho hnew hr hi hold fun r hr => hp ⟨r, hr⟩
  rw [hs i hni 0] at hx
  simp at hx

/-- The steps that a `Load` still has to take when the read map is complete. -/
def loadLeft : Proc (Op K V) (Res K V) (Pt K V) → Nat
  | .idle | .at _ .start => 3
  | .at _ (.eload _) => 2
  | .at _ _ => 3
  | .ret _ _ => 1
  | .done _ _ => 0

theorem noAdd_stays {m m' : Cm K V} {H H' : Hm K V} {l : Option (Ev (Op K V) (Res K V))} (h : prog.mach.Exec m H) (hs : prog.mach.Step m l m') (hn : NoAdd m.view)
    (hsub : ∀ e ∈ H ++ l.toList, e ∈ H') (hnew : ∀ j op, op.mayAdd → Ev.inv j op ∈ H' → Ev.inv j op ∈ H) : NoAdd m'.view := by
  intro j op s hv
  rcases Prog.step_cases hs with ⟨i, o, rfl, hvi, hg, hv'⟩ | ⟨i, o, t, c, y, rfl, hvi, hst, hv'⟩ | ⟨i, o, r, rfl, hvi, hg, hv'⟩
  · rw [hv'] at hv
    by_cases e : j = i
    · subst e
      simp only [upd_same, Option.some.injEq, Prod.mk.injEq] at hv
      obtain ⟨rfl, -⟩ := hv
      cases hadd : o.adds with
      | false => rfl
      | true =>
        have := hnew j o (adds_iff.mpr hadd) (hsub _ (by simp))
        obtain ⟨z, hz⟩ := (((prog).hist h).1 j o).mp this
        rw [hvi] at hz; simp at hz
    · rw [upd_ne _ _ e] at hv; exact hn _ _ _ hv
  · rw [hv'] at hv
    by_cases e : j = i
    · subst e
      simp only [upd_same, Option.some.injEq, Prod.mk.injEq] at hv
      obtain ⟨rfl, -⟩ := hv
      exact hn _ _ _ hvi
    · rw [upd_ne _ _ e] at hv; exact hn _ _ _ hv
  · rw [hv'] at hv; exact hn _ _ _ hv

theorem load_bound {i n : Nat} {k : K} {m m' : Cm K V} {H H' : Hm K V} (ht : prog.mach.Takes i m H n m' H') (h : prog.mach.Exec m H)
    (ha : m.g.amended = false) (hn : NoAdd m.view) (hnew : ∀ j op, op.mayAdd → Ev.inv j op ∈ H' → Ev.inv j op ∈ H) (hi : Ev.inv i (.load k) ∈ H')
    (hp : ∀ op s, m.pc i = .at op s → s = .start ∨ ∃ e, s = .eload e) : n ≤ loadLeft (m.pc i) := by
  induction ht with
  | refl => exact Nat.zero_le _
  | @inv m m₁ m' H H' n j op he ht ih =>
    have hs : prog.mach.Step m (some (.inv j op)) m₁ := .inv _ _ _ _ he
    have hpc : m₁.pc i = m.pc i ∨ (m.pc i = .idle ∧ m₁.pc i = .at op .start) := by
      simp only [Prog.mach] at he
      split at he
      · rename_i hidle
        simp only [Option.some.injEq] at he
        subst he
        by_cases e : i = j
        · subst e; right; exact ⟨hidle, by simp [prog]⟩
        · left; simp [upd_ne _ _ e]
      · simp at he
    have := ih (Mach.exec_snoc h hs) (amended_stays h hs hn ha) (noAdd_stays h hs hn ht.onward.sub hnew)
      (fun j o ho hj => List.mem_append_left _ (hnew j o ho hj)) hi
      (by
        intro o s ho
        rcases hpc with e | ⟨_, e⟩
        · rw [e] at ho; exact hp o s ho
        · rw [e] at ho; simp only [Proc.at.injEq] at ho; exact .inl ho.2.symm)
    rcases hpc with e | ⟨e1, e2⟩
    · rwa [e] at this
    · rw [e2] at this; rw [e1]; exact this
  | @other m m₁ m' H H' n j c l hj he ht ih =>
    have hs : prog.mach.Step m l m₁ := .run _ _ _ _ _ he
    have hpc : m₁.pc i = m.pc i := by
      simp only [Prog.mach] at he
      split at he
      · simp at he
      · split at he
        · simp at he
        all_goals
          simp only [Option.some.injEq, Prod.mk.injEq] at he
          obtain ⟨-, rfl⟩ := he
          simp [upd_ne _ _ (Ne.symm hj)]
      · simp only [Option.some.injEq, Prod.mk.injEq] at he
        obtain ⟨-, rfl⟩ := he
        simp [upd_ne _ _ (Ne.symm hj)]
      · simp at he
    have := ih (Mach.exec_snoc h hs) (amended_stays h hs hn ha) (noAdd_stays h hs hn ht.onward.sub hnew)
      (fun j o ho hj => List.mem_append_left _ (hnew j o ho hj)) hi (by rw [hpc]; exact hp)
    rwa [hpc] at this
  | @own m m₁ m' H H' n c l he ht ih =>
    have hs : prog.mach.Step m l m₁ := .run _ _ _ _ _ he
    have h' := Mach.exec_snoc h hs
    have hop : ∀ o s, m.pc i = .at o s → o = .load k := by
      intro o s ho
      have h1 : Ev.inv i o ∈ H := (((prog).hist h).1 i o).mpr ⟨.inl s, by simp [Conf.view, ho, Proc.view]⟩
      have hE := ht.onward.exec h'
      obtain ⟨x, hx⟩ := (((prog).hist hE).1 i o).mp (ht.onward.sub _ (List.mem_append_left _ h1))
      obtain ⟨y, hy⟩ := (((prog).hist hE).1 i (.load k)).mp hi
      rw [hx] at hy
      simp only [Option.some.injEq, Prod.mk.injEq] at hy
      exact hy.1
    have hpc : loadLeft (m₁.pc i) + 1 ≤ loadLeft (m.pc i) ∧ ∀ op s, m₁.pc i = .at op s → s = .start ∨ ∃ e, s = .eload e := by
      cases hm : m.pc i with
      | idle => simp [Prog.mach, hm] at he
      | done o r => simp [Prog.mach, hm] at he
      | ret o r =>
        simp only [Prog.mach, hm, Option.some.injEq, Prod.mk.injEq] at he
        obtain ⟨-, rfl⟩ := he
        simp [loadLeft]
      | «at» o s =>
        obtain rfl := hop o s hm
        rcases hp _ _ hm with rfl | ⟨e, rfl⟩
        · simp only [Prog.mach, hm, prog, step, startStep, ha] at he
          cases hr : m.g.read.get k with
          | none =>
            simp only [hr, Bool.false_eq_true, if_false, Option.some.injEq, Prod.mk.injEq] at he
            obtain ⟨-, rfl⟩ := he
            simp [loadLeft]
          | some e =>
            simp only [hr, Option.some.injEq, Prod.mk.injEq] at he
            obtain ⟨-, rfl⟩ := he
            simp [loadLeft]
        · simp only [Prog.mach, hm, prog, step, Option.some.injEq, Prod.mk.injEq] at he
          obtain ⟨-, rfl⟩ := he
          simp [loadLeft]
    have := ih h' (amended_stays h hs hn ha) (noAdd_stays h hs hn ht.onward.sub hnew)
      (fun j o ho hj => List.mem_append_left _ (hnew j o ho hj)) hi hpc.2
    omega

/-- **C132.** A `Load` then takes at most three steps, whatever the other calls do: it loads the read map, loads the pointer of the entry, and returns. -/
theorem C132_load_steps {i n : Nat} {k : K} (h : prog.mach.Exec m H) (hS : Settled H) (ht : prog.mach.Takes i m H n m' H')
    (hnew : ∀ j op, op.mayAdd → Ev.inv j op ∈ H' → Ev.inv j op ∈ H) (hi : Ev.inv i (.load k) ∈ H') (hold : Ev.inv i (.load k) ∉ H) : n ≤ 3 := by
  obtain ⟨ha, hn⟩ := hS.state h
  have hidle : m.pc i = .idle := prog.not_made h fun op hop => by
    have hE := ht.onward.exec h
    obtain ⟨x, hx⟩ := (((prog).hist hE).1 i op).mp (ht.onward.sub _ hop)
    obtain ⟨y, hy⟩ := (((prog).hist hE).1 i (.load k)).mp hi
    rw [hx] at hy
    simp only [Option.some.injEq, Prod.mk.injEq] at hy
    rw [hy.1] at hop
    exact hold hop
  have := load_bound ht h ha hn hnew hi (by simp [hidle])
  rwa [hidle] at this

/-- A history that is settled. -/
def demoSettled : Hm Nat Nat := [.inv 1 (.store 0 5), .ret 1 .unit, .inv 2 (.range fun _ _ _ => true), .ret 2 (.visited [(0, 5)] true)]

theorem demoSettled_settled : Settled demoSettled := by
  refine ⟨2, fun _ _ _ => true, [.inv 1 (.store 0 5), .ret 1 .unit], [.ret 2 (.visited [(0, 5)] true)], rfl, ⟨_, List.mem_singleton.mpr rfl⟩, fun j op ho hj => ?_⟩
  simp only [demoSettled, List.mem_cons, Ev.inv.injEq, reduceCtorEq, List.not_mem_nil, or_false, false_or] at hj
  rcases hj with ⟨rfl, rfl⟩ | ⟨rfl, rfl⟩
  · exact ⟨by simp, .unit, by simp⟩
  · simp [Op.mayAdd] at ho

theorem demoSettled_new {H' : Hm Nat Nat} (h : ∀ j op, op.mayAdd → Ev.inv j op ∈ H' → j = 1 ∧ op = .store 0 5) :
    ∀ j op, op.mayAdd → Ev.inv j op ∈ H' → Ev.inv j op ∈ demoSettled := by
  intro j op ho hj
  obtain ⟨rfl, rfl⟩ := h j op ho hj
  simp [demoSettled]

/-- A `ComputeIfPresent` stops with the lock; a `Load`, a `Delete`, a `Range` and a `Load` return. -/
theorem demoReads : ∃ m m', prog.mach.Exec m demoSettled ∧ prog.mach.Onward m demoSettled m' (demoSettled ++ [.inv 3 (.computeIfPresent 7 fun _ v _ => v), .inv 4 (.load 0),
      .ret 4 (.value (some 5)), .inv 5 (.delete 0), .ret 5 .unit, .inv 6 (.range fun _ _ _ => true), .ret 6 (.visited [] true), .inv 7 (.load 7), .ret 7 (.value none)]) ∧
      (m'.g.mu = some 3 ∧ m'.pc 4 = .done (.load 0) (.value (some 5)) ∧ m'.pc 5 = .done (.delete 0) .unit ∧ m'.pc 6 = .done (.range fun _ _ _ => true) (.visited [] true) ∧
        m'.pc 7 = .done (.load 7) (.value none) ∧ m'.pc 1 = .done (.store 0 5) .unit ∧ m'.pc 2 = .done (.range fun _ _ _ => true) (.visited [(0, 5)] true)) :=
  Mach.exists_onward_state _ ([.inv 1 (.store 0 5)] ++ runs 9 1 ++ [.inv 2 (.range fun _ _ _ => true)] ++ runs 9 2)
    ([.inv 3 (.computeIfPresent 7 fun _ v _ => v)] ++ runs 2 3 ++ [.inv 4 (.load 0)] ++ runs 3 4 ++ [.inv 5 (.delete 0)] ++ runs 4 5 ++
      [.inv 6 (.range fun _ _ _ => true)] ++ runs 4 6 ++ [.inv 7 (.load 7)] ++ runs 2 7) _ _ _
    (by exact And.intro rfl (And.intro rfl (And.intro rfl (And.intro rfl (And.intro rfl (And.intro rfl (And.intro rfl (And.intro rfl rfl))))))))

example : ∃ m m' : Cm Nat Nat, ∃ H', prog.mach.Exec m demoSettled ∧ prog.mach.Onward m demoSettled m' H' ∧ ∃ r, Ev.ret 5 r ∈ H' := by
  obtain ⟨m, m', h, ho, h0, h4, h5, h6, h7, h1, h2⟩ := demoReads
  refine ⟨m, m', _, h, ho, C132_slow h demoSettled_settled ho (demoSettled_new ?_) (fun j => j = 3) ?_ (op := .delete 0) trivial (by simp) (by simp [demoSettled]) (by simp)⟩
  · intro j op hop hj
    simp [demoSettled] at hj
    rcases hj with ⟨rfl, rfl⟩ | ⟨rfl, rfl⟩ | ⟨rfl, rfl⟩ | ⟨rfl, rfl⟩ | ⟨rfl, rfl⟩ | ⟨rfl, rfl⟩ | ⟨rfl, rfl⟩ <;> simp [Op.mayAdd] at hop ⊢
  · intro j hj c
    by_cases e1 : j = 1
    · subst e1; simp [Prog.mach, h1]
    by_cases e2 : j = 2
    · subst e2; simp [Prog.mach, h2]
    by_cases e4 : j = 4
    · subst e4; simp [Prog.mach, h4]
    by_cases e5 : j = 5
    · subst e5; simp [Prog.mach, h5]
    by_cases e6 : j = 6
    · subst e6; simp [Prog.mach, h6]
    by_cases e7 : j = 7
    · subst e7; simp [Prog.mach, h7]
    have e3 : ¬ j = 3 := hj
    have hid := prog.not_made (ho.exec h) (i := j) (by intro op; simp [demoSettled, e1, e2, e3, e4, e5, e6, e7])
    simp [Prog.mach, hid]

/-- A call that is not finished: it can go on although the lock is held. -/
theorem demoReadsNow : ∃ m m', prog.mach.Exec m demoSettled ∧ prog.mach.Onward m demoSettled m' (demoSettled ++ [.inv 3 (.computeIfPresent 7 fun _ v _ => v), .inv 4 (.load 0)]) ∧
      m'.g.mu = some 3 :=
  Mach.exists_onward_state _ ([.inv 1 (.store 0 5)] ++ runs 9 1 ++ [.inv 2 (.range fun _ _ _ => true)] ++ runs 9 2)
    ([.inv 3 (.computeIfPresent 7 fun _ v _ => v)] ++ runs 2 3 ++ [.inv 4 (.load 0)] ++ runs 1 4) _ _ _
    (by exact And.intro rfl (And.intro rfl rfl))

example : ∃ m' : Cm Nat Nat, m'.g.mu = some 3 ∧ ∃ x, prog.mach.next m' 4 0 = some x := by
  obtain ⟨m, m', h, ho, h0⟩ := demoReadsNow
  refine ⟨m', h0, C132_no_wait h demoSettled_settled ho (demoSettled_new ?_) (op := .load 0) trivial (by simp) (by simp [demoSettled]) (by simp [demoSettled])⟩
  intro j op hop hj
  simp [demoSettled] at hj
  rcases hj with ⟨rfl, rfl⟩ | ⟨rfl, rfl⟩ | ⟨rfl, rfl⟩ | ⟨rfl, rfl⟩ <;> simp [Op.mayAdd] at hop ⊢

example : ∃ m m' : Cm Nat Nat, ∃ H', prog.mach.Takes 4 m demoSettled 3 m' H' ∧ 3 ≤ 3 := by
  obtain ⟨m, m', h, ht⟩ := Mach.exists_takes prog.mach 4 ([.inv 1 (.store 0 5)] ++ runs 9 1 ++ [.inv 2 (.range fun _ _ _ => true)] ++ runs 9 2)
    ([.inv 3 (.computeIfPresent 7 fun _ v _ => v)] ++ runs 2 3 ++ [.inv 4 (.load 0)] ++ runs 3 4) demoSettled
    (demoSettled ++ [.inv 3 (.computeIfPresent 7 fun _ v _ => v), .inv 4 (.load 0), .ret 4 (.value (some 5))]) (by exact And.intro rfl rfl)
  refine ⟨m, m', _, ht, C132_load_steps (k := 0) h demoSettled_settled ht (demoSettled_new ?_) (by simp) (by simp [demoSettled])⟩
  intro j op hop hj
  simp [demoSettled] at hj
  rcases hj with ⟨rfl, rfl⟩ | ⟨rfl, rfl⟩ | ⟨rfl, rfl⟩ | ⟨rfl, rfl⟩ <;> simp [Op.mayAdd] at hop ⊢

/-- The condition is needed: a key has been added since the last `Range`, a `Store` stops with the lock, and a `Load` has to wait. -/
theorem C132_needed : ∃ m, (prog (K := Nat) (V := Nat)).mach.Exec m [.inv 1 (.store 0 5), .ret 1 .unit, .inv 2 (.store 1 6), .inv 3 (.load 0)] ∧
    ∀ c, prog.mach.next m 3 c = none := by
  have : ∃ m, (prog (K := Nat) (V := Nat)).mach.Exec m [.inv 1 (.store 0 5), .ret 1 .unit, .inv 2 (.store 1 6), .inv 3 (.load 0)] ∧
      (m.g.mu = some 2 ∧ m.pc 3 = .at (.load 0) .lock) :=
    Mach.exists_exec_state _ ([.inv 1 (.store 0 5)] ++ runs 9 1 ++ [.inv 2 (.store 1 6)] ++ runs 2 2 ++ [.inv 3 (.load 0)] ++ runs 1 3) _ _
      (by exact And.intro rfl (And.intro rfl rfl))
  obtain ⟨m, h, h1, h2⟩ := this
  exact ⟨m, h, fun c => by simp [Prog.mach, h2, prog, step, h1]⟩

end Verif.XSync.MapConc

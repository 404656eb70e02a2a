import Verif.XSync.MapConcEnds
import Verif.XSync.MapConcProps
import Verif.Conc.NestedEnds
import Verif.Conc.NestedRun
/-!
# User functions of `xsync.Map` that make calls on the map

The calls that the functions given to `Range`, `ComputeIfAbsent` and `ComputeIfPresent` make are calls of the same goroutine, on its stack
(`Verif/Conc/Nested.lean`).
-/
namespace Verif.XSync.MapConc
open Verif.Conc Verif.Go

variable {K V : Type}

/-- What the user functions do: `U op k v n tr` is the next call that the function of `op` makes when it is called with the key `k` (and the
value `v`) after `n` earlier calls of it, when the calls it has made so far and their results are `tr`; `none` if it makes no more calls. What
the function returns is a choice of the model (`Op`), so it may depend on anything. -/
abbrev Users (K V : Type) := Op K V → K → Option V → Nat → List (Op K V × Res K V) → Option (Op K V)

/-- The arguments of the user function that runs at a point, and how often the same call has called it before: map.go:294, 314, 367, 476. At
the other points no user function runs. -/
def inside : Op K V → Pt K V → Option (K × Option V × Nat)
  | .range _, .icall _ vis k v => some (k, some v, vis.length)
  | .computeIfAbsent k _, .addCall => some (k, none, 0)
  | .computeIfAbsent k _, .call _ _ _ => some (k, none, 0)
  | .computeIfPresent k _, .call _ _ p => some (k, p.get?, 0)
  | _, _ => none

/-- The user functions, as functions of the point of the call that calls them. -/
def fns (U : Users K V) : Fns (Op K V) (Res K V) (Pt K V) := fun op s tr => match inside op s with
  | some (k, v, n) => U op k v n tr
  | none => none

/-- Only the functions of `Range` make calls on the map. -/
def RangeOnly (U : Users K V) : Prop := ∀ op k v n tr op', U op k v n tr = some op' → ∃ f, op = .range f

/-- No function makes calls forever. -/
def Finite (U : Users K V) : Prop := ∀ op k v n, WellFounded fun tr' tr => ∃ op' r, U op k v n tr = some op' ∧ tr' = tr ++ [(op', r)]

/-- The depth of nested calls is limited. -/
def Depth (U : Users K V) (rank : Op K V → Nat) : Prop := ∀ op k v n tr op', U op k v n tr = some op' → rank op' < rank op

/-- Proof only: a bound on the user functions that are still called. -/
def Cont.w : Cont K V → Nat × Nat
  | .iter m => (0, 2 * m.length)
  | _ => (0, 0)

/-- A bound on the user functions that a call still calls (second component, once the first one is 0). -/
def nw : Pt K V → Nat × Nat
  | .start | .tryLoad .free _ | .call .free _ _ => (1, 1)
  | .cas .free _ _ _ | .reload .free _ _ | .lock | .locked | .rpromote => (1, 0)
  | .unexp _ | .tryLoad _ _ | .call _ _ _ | .build0 _ | .build _ _ | .buildE _ _ _ _ | .buildC _ _ _ _ | .amend _ | .addCall => (0, 1)
  | .cas _ _ _ _ | .reload _ _ _ | .add _ | .storeLocked _ | .eload _ | .del _ | .delCas _ _ => (0, 0)
  | .miss k | .promote k | .unlock k => k.w
  | .iter todo _ => (0, 2 * todo.length)
  | .icall todo _ _ _ => (0, 2 * todo.length + 1)

/-- The points at which no user function runs. -/
def Pt.quiet : Pt K V → Bool
  | .call _ _ _ | .addCall | .icall _ _ _ _ => false
  | _ => true

theorem inside_quiet (op : Op K V) {s : Pt K V} (h : s.quiet = true) : inside op s = none := by
  cases op <;> cases s <;> simp_all [inside, Pt.quiet]

theorem fns_quiet (U : Users K V) (op : Op K V) {s : Pt K V} (tr : List (Op K V × Res K V)) (h : s.quiet = true) : fns U op s tr = none := by
  simp [fns, inside_quiet op h]

theorem fns_some {U : Users K V} {op op' : Op K V} {s : Pt K V} {tr : List (Op K V × Res K V)} (h : fns U op s tr = some op') :
    ∃ k v n, inside op s = some (k, v, n) ∧ U op k v n tr = some op' := by
  simp only [fns] at h
  split at h
  · rename_i k v n hi; exact ⟨k, v, n, hi, h⟩
  · simp at h

theorem fns_wf {U : Users K V} (hU : Finite U) (op : Op K V) (s : Pt K V) : WellFounded (Longer (fns U) op s) := by
  cases hi : inside op s with
  | none =>
    refine ⟨fun tr => ⟨_, ?_⟩⟩
    rintro tr' ⟨op', r, h1, _⟩
    simp [fns, hi] at h1
  | some x =>
    obtain ⟨k, v, n⟩ := x
    refine Subrelation.wf ?_ (hU op k v n)
    rintro tr' tr ⟨op', r, h1, h2⟩
    simp only [fns, hi] at h1
    exact ⟨op', r, h1, h2⟩

variable [DecidableEq K] [DecidableEq V]

theorem lex_iff {a b : Nat × Nat} : lexLt a b ↔ a.1 < b.1 ∨ a.1 = b.1 ∧ a.2 < b.2 := Prod.lex_def

/-- Proof only: the bound has become smaller, or the step called no function. -/
def Below (s : Pt K V) (a : Nat × Nat) : Prop := lexLt a (nw s) ∨ a = nw s ∧ s.quiet = true

theorem length_erase {A : Type} {l : List A} {n : Nat} {x : A} (h : l[n]? = some x) : (l.eraseIdx n).length + 1 = l.length := by
  have := (List.getElem?_eq_some_iff.mp h).1
  rw [List.length_eraseIdx_of_lt this]
  omega

theorem fewer {g : G K V} {i : Nat} {op : Op K V} {s : Pt K V} {c : Nat} {g' : G K V} {x : Pt K V ⊕ Res K V} (h : step g i op s c = some (g', x)) :
    Below s (x.elim nw fun _ => (0, 0)) := by
  cases s with
  | start =>
    simp only [step, Option.some.injEq, Prod.mk.injEq] at h
    obtain ⟨rfl, rfl⟩ := h
    unfold startStep
    repeat' split
    all_goals simp [Below, nw, lex_iff, Pt.quiet]
  | tryLoad m e =>
    simp only [step, Option.some.injEq, Prod.mk.injEq] at h
    obtain ⟨rfl, rfl⟩ := h
    cases hf : first op (g.p e) <;> cases m <;> simp [decide', after, Below, nw, lex_iff, Pt.quiet, Cont.w]
  | call m e q =>
    simp only [step] at h
    split at h <;> simp only [Option.some.injEq, Prod.mk.injEq, reduceCtorEq] at h
    obtain ⟨rfl, rfl⟩ := h
    cases m <;> simp [Below, nw, lex_iff, Pt.quiet]
  | cas m e q x =>
    simp only [step] at h
    split at h <;> simp only [Option.some.injEq, Prod.mk.injEq] at h <;> obtain ⟨rfl, rfl⟩ := h
    · cases m <;> simp [after, Below, nw, lex_iff, Pt.quiet, Cont.w]
    · cases m <;> simp [Below, nw, lex_iff, Pt.quiet]
  | reload m e x =>
    simp only [step, Option.some.injEq, Prod.mk.injEq] at h
    obtain ⟨rfl, rfl⟩ := h
    cases hf : again x op (g.p e) <;> cases m <;> simp [decide', after, Below, nw, lex_iff, Pt.quiet, Cont.w]
    all_goals (cases op <;> cases hq : g.p e <;> simp [again, hq] at hf)
  | lock =>
    simp only [step] at h
    split at h <;> simp only [Option.some.injEq, Prod.mk.injEq, reduceCtorEq] at h
    obtain ⟨rfl, rfl⟩ := h
    simp [Below, nw, lex_iff, Pt.quiet]
  | locked =>
    simp only [step, Option.some.injEq, Prod.mk.injEq] at h
    obtain ⟨rfl, rfl⟩ := h
    cases op <;> simp only [lockedStep] <;> (repeat' split) <;> simp [Below, nw, lex_iff, Pt.quiet, Cont.w]
  | unexp e =>
    simp only [step] at h
    split at h
    · split at h
      · simp at h
      · split at h <;> simp only [Option.some.injEq, Prod.mk.injEq] at h <;> obtain ⟨rfl, rfl⟩ := h
        · simp [Below, nw, lex_iff, Pt.quiet]
        · cases op <;> simp [afterUnexp, Below, nw, lex_iff, Pt.quiet]
    · simp only [Option.some.injEq, Prod.mk.injEq] at h
      obtain ⟨rfl, rfl⟩ := h
      cases op <;> simp [afterUnexp, Below, nw, lex_iff, Pt.quiet]
  | storeLocked e =>
    simp only [step] at h
    split at h <;> simp only [Option.some.injEq, Prod.mk.injEq, reduceCtorEq] at h
    obtain ⟨rfl, rfl⟩ := h
    simp [Below, nw, lex_iff, Pt.quiet, Cont.w]
  | miss k =>
    simp only [step, Option.some.injEq, Prod.mk.injEq] at h
    obtain ⟨rfl, rfl⟩ := h
    split <;> simp [Below, nw, lex_iff, Pt.quiet]
  | promote k =>
    simp only [step, Option.some.injEq, Prod.mk.injEq] at h
    obtain ⟨rfl, rfl⟩ := h
    simp [Below, nw, Pt.quiet]
  | rpromote =>
    simp only [step, Option.some.injEq, Prod.mk.injEq] at h
    obtain ⟨rfl, rfl⟩ := h
    simp [Below, nw, lex_iff, Cont.w]
  | build0 rm =>
    simp only [step] at h
    split at h <;> simp only [Option.some.injEq, Prod.mk.injEq] at h <;> obtain ⟨rfl, rfl⟩ := h <;> simp [Below, nw, Pt.quiet]
  | build rm todo =>
    simp only [step] at h
    split at h
    · simp only [Option.some.injEq, Prod.mk.injEq] at h
      obtain ⟨rfl, rfl⟩ := h
      simp [Below, nw, Pt.quiet]
    · split at h <;> simp only [Option.some.injEq, Prod.mk.injEq, reduceCtorEq] at h
      obtain ⟨rfl, rfl⟩ := h
      simp [Below, nw, Pt.quiet]
  | buildE rm rest k e =>
    simp only [step] at h
    repeat' split at h
    all_goals
      simp only [Option.some.injEq, Prod.mk.injEq] at h
      obtain ⟨rfl, rfl⟩ := h
      simp [Below, nw, lex_iff, Pt.quiet]
  | buildC rm rest k e =>
    simp only [step] at h
    split at h <;> simp only [Option.some.injEq, Prod.mk.injEq] at h <;> obtain ⟨rfl, rfl⟩ := h <;> simp [Below, nw, Pt.quiet]
  | amend rm =>
    simp only [step] at h
    split at h <;> simp only [Option.some.injEq, Prod.mk.injEq, reduceCtorEq] at h
    obtain ⟨rfl, rfl⟩ := h
    rename_i s' hs'
    cases op <;> simp [afterAmend] at hs' <;> subst hs' <;> simp [Below, nw, lex_iff, Pt.quiet]
  | addCall =>
    simp only [step] at h
    split at h <;> simp only [Option.some.injEq, Prod.mk.injEq, reduceCtorEq] at h
    obtain ⟨rfl, rfl⟩ := h
    simp [Below, nw, lex_iff]
  | add v =>
    simp only [step] at h
    repeat' split at h
    all_goals simp only [Option.some.injEq, Prod.mk.injEq, reduceCtorEq] at h
    all_goals
      obtain ⟨rfl, rfl⟩ := h
      simp [Below, nw, Pt.quiet, Cont.w]
  | unlock k =>
    simp only [step, Option.some.injEq, Prod.mk.injEq] at h
    obtain ⟨rfl, rfl⟩ := h
    cases k <;> simp [Cont.go, Below, nw, Pt.quiet, Cont.w, lex_iff]
  | eload e =>
    simp only [step, Option.some.injEq, Prod.mk.injEq] at h
    obtain ⟨rfl, rfl⟩ := h
    simp [Below, nw, Pt.quiet]
  | del e =>
    simp only [step] at h
    split at h <;> simp only [Option.some.injEq, Prod.mk.injEq] at h <;> obtain ⟨rfl, rfl⟩ := h <;> simp [Below, nw, Pt.quiet]
  | delCas e q =>
    simp only [step] at h
    split at h <;> simp only [Option.some.injEq, Prod.mk.injEq] at h <;> obtain ⟨rfl, rfl⟩ := h <;> simp [Below, nw, Pt.quiet]
  | iter todo vis =>
    simp only [step] at h
    split at h
    · simp only [Option.some.injEq, Prod.mk.injEq] at h
      obtain ⟨rfl, rfl⟩ := h
      simp [Below, nw, Pt.quiet]
    · split at h
      · simp at h
      · rename_i hx
        have := length_erase hx
        split at h <;> simp only [Option.some.injEq, Prod.mk.injEq] at h <;> obtain ⟨rfl, rfl⟩ := h <;> simp [Below, nw, lex_iff] <;> omega
  | icall todo vis k v =>
    simp only [step] at h
    split at h <;> simp only [Option.some.injEq, Prod.mk.injEq, reduceCtorEq] at h
    obtain ⟨rfl, rfl⟩ := h
    split <;> simp [Below, nw, lex_iff]

theorem finitary {U : Users K V} {rank : Op K V → Nat} (hd : Depth U rank) (hf : Finite U) : Finitary prog (fns U) rank fun _ => nw where
  rank h := by obtain ⟨k, v, n, _, h'⟩ := fns_some h; exact hd _ _ _ _ _ _ h'
  fns := fns_wf hf
  down {m H i op s c g' x} _ _ hs := by
    rcases fewer hs with h | ⟨h, hq⟩
    · exact .inl h
    · exact .inr ⟨h, fns_quiet U op [] hq⟩

/-- The level of the only lock. -/
def own (_ : Op K V) (s : Pt K V) : Option Nat := if s.holds then some 0 else none

theorem levels {U : Users K V} (hU : RangeOnly U) : Levels prog (fns U) own (fun _ => 0) 1 where
  waits {m H} h {i op s} hp := by
    obtain ⟨gh, _, _, hI⟩ := simulation h
    have hv : m.view i = some (op, .inl s) := by simp [Conf.view, hp, Proc.view]
    by_cases hw : s = .lock ∧ m.g.mu ≠ none
    · obtain ⟨rfl, hmu⟩ := hw
      obtain ⟨l, hl⟩ := Option.ne_none_iff_exists'.mp hmu
      obtain ⟨o, s', h1, h2⟩ := hI.muIn l hl
      refine .inr ⟨by simp [own, Pt.holds], 0, l, o, s', Nat.le_refl _, by omega, ?_, by simp [own, h2]⟩
      simp only [Conf.view] at h1
      cases hq : m.pc l <;> simp [hq, Proc.view] at h1
      rw [h1.1, h1.2]
    · obtain ⟨⟨g', x⟩, hx⟩ := enabled hI hv fun hl => Classical.byContradiction fun hc => hw ⟨hl, hc⟩
      refine .inl ?_
      have hx' : (prog (K := K) (V := V)).step m.g i op s 0 = some (g', x) := hx
      cases x with
      | inl s' => exact ⟨⟨g', upd m.pc i (.at op s')⟩, by simp [Prog.mach, hp, hx']⟩
      | inr r => exact ⟨⟨g', upd m.pc i (.ret op r)⟩, by simp [Prog.mach, hp, hx']⟩
  above {m H} _ {i op s} _ {tr op'} h := by
    obtain ⟨k, v, n, hi, h'⟩ := fns_some h
    obtain ⟨f, rfl⟩ := hU _ _ _ _ _ _ h'
    refine ⟨Nat.le_refl _, fun l hl => ?_⟩
    cases s <;> simp [inside] at hi
    simp [own, Pt.holds] at hl

/-- While a call holds the lock, the others leave it alone. -/
theorem mu_keep {g : G K V} {v : Vw K V} {gh : Gh K V} (hI : I g v gh) {i l : Nat} {o : Op K V} {s : Pt K V} {c : Nat} {g' : G K V} {x : Pt K V ⊕ Res K V}
    (hmu : g.mu = some i) (hv : v l = some (o, .inl s)) (hl : l ≠ i) (hs : step g l o s c = some (g', x)) : g'.mu = some i := by
  have hh : s.holds ≠ true := fun hc => by
    have := (hI.mu l o s hv).mp hc
    rw [hmu] at this
    exact hl (by simpa using this.symm)
  cases s <;> simp only [Pt.holds, not_true_eq_false, bne_iff_ne, ne_eq, not_not] at hh
  all_goals (unfold step at hs; simp only [G.setP] at hs; grind)

theorem mu_stays {m : Conf (G K V) (Op K V) (Res K V) (Pt K V)} {H : List (Ev (Op K V) (Res K V))} (h : prog.mach.Exec m H) {i l : Nat} {o : Op K V} {s : Pt K V}
    {c : Nat} {g' : G K V} {x : Pt K V ⊕ Res K V} (hmu : m.g.mu = some i) (hp : m.pc l = .at o s) (hl : l ≠ i) (hs : step m.g l o s c = some (g', x)) :
    g'.mu = some i := by
  obtain ⟨gh, _, _, hI⟩ := simulation h
  exact mu_keep hI hmu (by simp [Conf.view, hp, Proc.view]) hl hs

end Verif.XSync.MapConc

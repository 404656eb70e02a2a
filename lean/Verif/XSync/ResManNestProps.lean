import Verif.XSync.ResManNest
import Verif.Conc.Ends
import Verif.XSync.ResManInv
import Mathlib.Data.List.Induction
/-! # User functions that use the resource manager they were given to (C114) -/
namespace Verif.XSync.ResManNest
open Verif.Conc
open Verif.XSync.ResMan (Outcome find erase insert)

variable {K E : Type} [DecidableEq K]

/-- Abbreviation. -/
abbrev VN (K E : Type) := View (Op K E) (Res E) (Pt K E)

/-! ## Every call takes finitely many steps -/

section Ends
variable {clm : Nat → Tree K E} {op : Op K E}

local notation "A" => Acc (Prog.Own (prog clm) op)

theorem acc_of {s : Pt K E} (h : ∀ g i c g' x, step clm g i op s c = some (g', x) → A x) : A (.inl s) := by
  refine ⟨_, fun y => ?_⟩
  rintro ⟨s', g, i, c, g', e, hs⟩
  cases e
  exact h g i c g' y hs

theorem acc_res {r : Res E} : A (.inr r) := ⟨_, fun y => by rintro ⟨_, _, _, _, _, e, _⟩; cases e⟩

theorem acc_drop {k : K} {u : Under K E} {t : Nat} {o : Outcome E} (hu : ∀ o, A (leave u o)) : A (.inl (.frame k (.drop t o) u)) := by
  refine acc_of fun g i c g' x h => ?_
  simp only [step, frameStep, Option.some.injEq, Prod.mk.injEq] at h
  rw [← h.2]; exact hu o

theorem acc_finish {k : K} {u : Under K E} {t : Nat} {o : Outcome E} (hu : ∀ o, A (leave u o)) : A (.inl (.frame k (.finish t o) u)) := by
  refine acc_of fun g i c g' x h => ?_
  simp only [step, frameStep, Option.some.injEq, Prod.mk.injEq] at h
  rw [← h.2]; exact acc_drop hu

theorem acc_store {k : K} {u : Under K E} {t : Nat} (hu : ∀ o, A (leave u o)) : A (.inl (.frame k (.store t) u)) := by
  refine acc_of fun g i c g' x h => ?_
  simp only [step, frameStep] at h
  split at h
  · simp at h
  · split at h <;> simp only [Option.some.injEq, Prod.mk.injEq] at h <;> rw [← h.2] <;> exact acc_finish hu

theorem acc_wait {k : K} {u : Under K E} {t : Nat} (hu : ∀ o, A (leave u o)) : A (.inl (.frame k (.wait t) u)) := by
  refine acc_of fun g i c g' x h => ?_
  simp only [step, frameStep] at h
  split at h
  · simp only [Option.some.injEq, Prod.mk.injEq] at h
    rw [← h.2]; exact hu _
  · simp at h

theorem acc_start {k : K} {u : Under K E} {p : Tree K E} (hu : ∀ o, A (leave u o)) (hp : ∀ t, A (.inl (.frame k (.creating t p) u))) :
    A (.inl (.frame k (.start p) u)) := by
  refine acc_of fun g i c g' x h => ?_
  simp only [step, frameStep] at h
  split at h <;> simp only [Option.some.injEq, Prod.mk.injEq] at h <;> rw [← h.2]
  · exact acc_wait hu
  · refine acc_of fun g i c g' x h => ?_
    simp only [step, frameStep] at h
    split at h
    · simp at h
    · split at h <;> simp only [Option.some.injEq, Prod.mk.injEq] at h <;> rw [← h.2]
      · exact acc_finish hu
      · exact hp _

theorem acc_creating (p : Tree K E) : ∀ (k : K) (u : Under K E) (t : Nat), (∀ o, A (leave u o)) → A (.inl (.frame k (.creating t p) u)) := by
  induction p with
  | ret e =>
    intro k u t hu
    refine acc_of fun g i c g' x h => ?_
    cases e <;> simp only [step, frameStep, Option.some.injEq, Prod.mk.injEq] at h <;> rw [← h.2]
    · exact acc_store hu
    · exact acc_finish hu
  | get k' cr f ihc ihf =>
    intro k u t hu
    refine acc_of fun g i c g' x h => ?_
    simp only [step, frameStep, Option.some.injEq, Prod.mk.injEq] at h
    rw [← h.2]
    have hu' : ∀ o, A (leave (.create k t f u) o) := by
      intro o
      cases o <;> simp only [leave]
      · exact ihf _ k u t hu
      · exact ihf _ k u t hu
      · exact acc_finish hu
    exact acc_start hu' fun t' => ihc k' _ t' hu'
  | remove k' f ih =>
    intro k u t hu
    refine acc_of fun g i c g' x h => ?_
    simp only [step, frameStep] at h
    split at h
    · simp at h
    · simp only [Option.some.injEq, Prod.mk.injEq] at h
      rw [← h.2]; exact ih _ k u t hu

theorem acc_method {todo : List (K × Nat)} (hc : A (.inl (.closing todo))) (p : Tree K E) : A (.inl (.method todo p)) := by
  induction p with
  | ret e =>
    refine acc_of fun g i c g' x h => ?_
    simp only [step, Option.some.injEq, Prod.mk.injEq] at h
    rw [← h.2]; exact hc
  | get k' cr f _ ihf =>
    refine acc_of fun g i c g' x h => ?_
    simp only [step, Option.some.injEq, Prod.mk.injEq] at h
    rw [← h.2]
    have hu : ∀ o, A (leave (.close todo f) o) := by
      intro o
      cases o <;> simp only [leave]
      · exact ihf _
      · exact ihf _
      · exact acc_res
    exact acc_start hu fun t' => acc_creating _ _ _ _ hu
  | remove k' f ih =>
    refine acc_of fun g i c g' x h => ?_
    simp only [step] at h
    split at h
    · simp at h
    · simp only [Option.some.injEq, Prod.mk.injEq] at h
      rw [← h.2]; exact ih _

theorem acc_closing : ∀ (n : Nat) (todo : List (K × Nat)), todo.length = n → A (.inl (.closing todo))
  | 0, todo, h => by
    cases todo with
    | cons _ _ => simp at h
    | nil =>
      refine acc_of fun g i c g' x h => ?_
      simp only [step, Option.some.injEq, Prod.mk.injEq] at h
      rw [← h.2]; exact acc_res
  | n + 1, todo, hn => by
    cases todo with
    | nil => simp at hn
    | cons y l =>
      refine acc_of fun g i c g' x h => ?_
      simp only [step] at h
      split at h
      · simp at h
      · simp only [Option.some.injEq, Prod.mk.injEq] at h
        rw [← h.2]
        refine acc_method (acc_closing n _ ?_) _
        rw [List.length_eraseIdx_of_lt (by simpa using Nat.mod_lt _ (Nat.succ_pos _))]
        simpa using hn

theorem acc_begin : A (.inl ((prog clm).begin op)) := by
  cases op with
  | get k cr =>
    have hu : ∀ o, Acc (Prog.Own (prog clm) (.get k cr)) (leave .user o) := fun o => acc_res
    exact acc_start hu fun t => acc_creating _ _ _ _ hu
  | remove k =>
    refine acc_of fun g i c g' x h => ?_
    simp only [step, prog] at h
    split at h
    · simp at h
    · simp only [Option.some.injEq, Prod.mk.injEq] at h
      rw [← h.2]; exact acc_res
  | close =>
    refine acc_of fun g i c g' x h => ?_
    simp only [step, prog] at h
    split at h
    · simp at h
    · simp only [Option.some.injEq, Prod.mk.injEq] at h
      rw [← h.2]; exact acc_closing _ _ rfl

end Ends

/-- **C114.** Whatever the user functions do with the manager, no schedule goes on for ever: without new calls every execution ends (with all calls
returned, or in a dead-lock). -/
theorem C114_ends {clm : Nat → Tree K E} {m : Conf (G K E) (Op K E) (Res E) (Pt K E)} {H : List (Ev (Op K E) (Res E))}
    (h : (prog clm).mach.Exec m H) : Acc (prog clm).Moves m :=
  (prog clm).ends (fun _ => acc_begin) h

/-! ## Dead-locks -/

/-- Proof only: part of an invariant or simulation; models no code. -/
def FPt.lead : FPt K E → Option Nat
  | .lookup t _ | .creating t _ | .store t | .finish t _ => some t
  | _ => none

/-- The flights led by the create functions of a stack. -/
def Under.leads : Under K E → List (K × Nat)
  | .create k t _ u => (k, t) :: u.leads
  | _ => []

/-- The flights led by a goroutine that have not published their outcome. -/
def leads : Pt K E ⊕ Res E → List (K × Nat)
  | .inl (.frame k p u) => match p.lead with
    | some t => (k, t) :: u.leads
    | none => u.leads
  | _ => []

/-- Proof only: part of an invariant or simulation; models no code. -/
def Led (g : G K E) (v : VN K E) (k : K) (t : Nat) : Prop :=
  (g.fin t).isSome = true ∨ ∃ j op x, v j = some (op, x) ∧ (k, t) ∈ leads x

omit [DecidableEq K] in
theorem leads_leave (u : Under K E) (o : Outcome E) : leads (leave u o) = u.leads := by
  cases u <;> cases o <;> simp [leave, leads, FPt.lead, Under.leads]

/-- The bottom of the stack is a `Close` call. -/
def Under.closes : Under K E → Bool
  | .user => false
  | .create _ _ _ u => u.closes
  | .close _ _ => true

/-- Points at which a call may hold the lock. -/
def holds : Pt K E ⊕ Res E → Bool
  | .inl (.closing _) | .inl (.method _ _) | .inl (.frame _ (.finish _ .panic) _) | .inl (.frame _ (.drop _ .panic) _)
  | .inr (.get .panic) | .inr .closePanic => true
  | .inl (.frame _ _ u) => u.closes
  | _ => false

omit [DecidableEq K] in
theorem holds_frame {k : K} {p : FPt K E} {u : Under K E} (h : u.closes = true) : holds (.inl (.frame k p u)) = true := by
  unfold holds
  split <;> simp_all

omit [DecidableEq K] in
theorem holds_panic (u : Under K E) : holds (leave u .panic) = true := by
  cases u <;> simp [leave, holds]

omit [DecidableEq K] in
theorem holds_leave {u : Under K E} (o : Outcome E) (h : u.closes = true) : holds (leave u o) = true := by
  cases u with
  | user => simp [Under.closes] at h
  | create k t f u => cases o <;> exact holds_frame h
  | close todo f => cases o <;> simp [leave, holds]

omit [DecidableEq K] in
theorem leave_ne_wait (u : Under K E) (o : Outcome E) (k : K) (t : Nat) (u' : Under K E) : leave u o ≠ .inl (.frame k (.wait t) u') := by
  cases u <;> cases o <;> simp [leave]

theorem removal_same (g : G K E) (k : K) : (removal g k).1.wlock = g.wlock ∧ (removal g k).1.flight = g.flight ∧ (removal g k).1.fin = g.fin ∧
    (removal g k).1.next = g.next ∧ ((removal g k).1.res = none → g.res = none) := by
  unfold removal
  split
  · simp
  · split <;> simp_all

/-- What a step does to flights, outcomes and the lock. -/
structure Effect (g : G K E) (i : Nat) (s : Pt K E) (g' : G K E) (x : Pt K E ⊕ Res E) : Prop where
  fin : ∀ t, (g.fin t).isSome = true → (g'.fin t).isSome = true
  leads : ∀ k t, (k, t) ∈ leads (.inl s : Pt K E ⊕ Res E) → (k, t) ∈ ResManNest.leads x ∨ (g'.fin t).isSome = true
  flight : ∀ k t, g'.flight k = some t → g.flight k = some t ∨ (k, t) ∈ ResManNest.leads x
  wait : ∀ k t u, x = .inl (.frame k (.wait t) u) → g.flight k = some t
  lock : ∀ j, g'.wlock = some j → (j = i ∧ holds x = true) ∨ (g.wlock = some j ∧ (holds (.inl s : Pt K E ⊕ Res E) = true → holds x = true))

theorem effect {clm : Nat → Tree K E} {g : G K E} {i : Nat} {op : Op K E} {s : Pt K E} {c : Nat} {g' : G K E} {x : Pt K E ⊕ Res E}
    (hs : step clm g i op s c = some (g', x)) : Effect g i s g' x := by
  cases s with
  | frame k p u =>
    cases p with
    | start cr =>
      simp only [step, frameStep] at hs
      split at hs <;> simp only [Option.some.injEq, Prod.mk.injEq] at hs <;> obtain ⟨rfl, rfl⟩ := hs
      · rename_i t hf
        constructor <;> simp_all [ResManNest.leads, FPt.lead, holds]
      · constructor <;> simp_all [ResManNest.leads, FPt.lead, holds]
        intro k' t
        split <;> simp_all
    | wait t =>
      simp only [step, frameStep] at hs
      split at hs <;> simp only [Option.some.injEq, Prod.mk.injEq, reduceCtorEq] at hs
      obtain ⟨rfl, rfl⟩ := hs
      rename_i o ho
      constructor
      · exact fun _ h => h
      · intro k' t' h; rw [leads_leave]; exact .inl h
      · exact fun _ _ h => .inl h
      · intro k t u h; exact absurd h (leave_ne_wait _ _ _ _ _)
      · exact fun j h => .inr ⟨h, fun hh => holds_leave o hh⟩
    | lookup t cr =>
      simp only [step, frameStep] at hs
      split at hs
      · simp at hs
      · split at hs <;> simp only [Option.some.injEq, Prod.mk.injEq] at hs <;> obtain ⟨rfl, rfl⟩ := hs <;>
          constructor <;> simp_all [ResManNest.leads, FPt.lead, holds]
    | creating t p =>
      cases p with
      | ret e =>
        cases e <;> simp only [step, frameStep, Option.some.injEq, Prod.mk.injEq] at hs <;> obtain ⟨rfl, rfl⟩ := hs <;>
          constructor <;> simp_all [ResManNest.leads, FPt.lead, holds]
      | get k' cr f =>
        simp only [step, frameStep, Option.some.injEq, Prod.mk.injEq] at hs
        obtain ⟨rfl, rfl⟩ := hs
        constructor <;> simp_all [ResManNest.leads, FPt.lead, holds, Under.leads, Under.closes]
      | remove k' f =>
        simp only [step, frameStep] at hs
        split at hs
        · simp at hs
        · simp only [Option.some.injEq, Prod.mk.injEq] at hs
          obtain ⟨rfl, rfl⟩ := hs
          obtain ⟨h1, h2, h3, _⟩ := removal_same g k'
          constructor <;> simp_all [ResManNest.leads, FPt.lead, holds]
    | store t =>
      simp only [step, frameStep] at hs
      split at hs
      · simp at hs
      · split at hs <;> simp only [Option.some.injEq, Prod.mk.injEq] at hs <;> obtain ⟨rfl, rfl⟩ := hs <;>
          constructor <;> simp_all [ResManNest.leads, FPt.lead, holds]
    | finish t o =>
      simp only [step, frameStep, Option.some.injEq, Prod.mk.injEq] at hs
      obtain ⟨rfl, rfl⟩ := hs
      constructor
      · intro t' h
        by_cases ht : t' = t
        · subst ht; simp
        · simpa [upd_ne _ _ ht] using h
      · intro k' t' h
        simp only [ResManNest.leads, FPt.lead, List.mem_cons, Prod.mk.injEq] at h ⊢
        rcases h with ⟨rfl, rfl⟩ | h
        · simp
        · exact .inl h
      · intro k' t' h; exact .inl h
      · simp
      · intro j h
        refine .inr ⟨h, ?_⟩
        cases o <;> simp [holds]
    | drop t o =>
      simp only [step, frameStep, Option.some.injEq, Prod.mk.injEq] at hs
      obtain ⟨rfl, rfl⟩ := hs
      constructor
      · exact fun _ h => h
      · intro k' t' h; rw [leads_leave]; exact .inl h
      · intro k' t'
        simp only
        split <;> simp_all
      · intro k t u h; exact absurd h (leave_ne_wait _ _ _ _ _)
      · intro j h
        refine .inr ⟨h, fun hh => ?_⟩
        cases o with
        | panic => exact holds_panic u
        | got r => exact holds_leave _ hh
        | failed e => exact holds_leave _ hh
  | remove k =>
    simp only [step] at hs
    split at hs
    · simp at hs
    · simp only [Option.some.injEq, Prod.mk.injEq] at hs
      obtain ⟨rfl, rfl⟩ := hs
      obtain ⟨h1, h2, h3, _⟩ := removal_same g k
      constructor <;> simp_all [ResManNest.leads, holds]
  | lock =>
    simp only [step] at hs
    split at hs
    · simp at hs
    · simp only [Option.some.injEq, Prod.mk.injEq] at hs
      obtain ⟨rfl, rfl⟩ := hs
      constructor <;> simp_all [ResManNest.leads, holds]
  | closing todo =>
    cases todo with
    | nil =>
      simp only [step, Option.some.injEq, Prod.mk.injEq] at hs
      obtain ⟨rfl, rfl⟩ := hs
      constructor <;> simp_all [ResManNest.leads, holds]
    | cons y l =>
      simp only [step] at hs
      split at hs
      · simp at hs
      · simp only [Option.some.injEq, Prod.mk.injEq] at hs
        obtain ⟨rfl, rfl⟩ := hs
        constructor <;> simp_all [ResManNest.leads, holds]
  | method todo p =>
    cases p with
    | ret e =>
      simp only [step, Option.some.injEq, Prod.mk.injEq] at hs
      obtain ⟨rfl, rfl⟩ := hs
      constructor <;> simp_all [ResManNest.leads, holds]
    | get k cr f =>
      simp only [step, Option.some.injEq, Prod.mk.injEq] at hs
      obtain ⟨rfl, rfl⟩ := hs
      constructor <;> simp_all [ResManNest.leads, holds, Under.closes]
    | remove k f =>
      simp only [step] at hs
      split at hs
      · simp at hs
      · simp only [Option.some.injEq, Prod.mk.injEq] at hs
        obtain ⟨rfl, rfl⟩ := hs
        obtain ⟨h1, h2, h3, _⟩ := removal_same g k
        constructor <;> simp_all [ResManNest.leads, holds]

/-- Proof only: part of an invariant or simulation; models no code. -/
structure NInv (g : G K E) (v : VN K E) : Prop where
  wait : ∀ i op k t u, v i = some (op, .inl (.frame k (.wait t) u)) → Led g v k t
  flight : ∀ k t, g.flight k = some t → Led g v k t
  lock : ∀ j, g.wlock = some j → ∃ op x, v j = some (op, x) ∧ holds x = true

theorem Led.step {g g' : G K E} {v : VN K E} {i : Nat} {op : Op K E} {s : Pt K E} {x : Pt K E ⊕ Res E} (hv : v i = some (op, .inl s))
    (e : Effect g i s g' x) {k : K} {t : Nat} (h : Led g v k t) : Led g' (upd v i (some (op, x))) k t := by
  rcases h with h | ⟨j, op', y, hj, hm⟩
  · exact .inl (e.fin t h)
  · by_cases hji : j = i
    · subst hji
      rw [hv] at hj
      simp only [Option.some.injEq, Prod.mk.injEq] at hj
      obtain ⟨rfl, rfl⟩ := hj
      rcases e.leads k t hm with h | h
      · exact .inr ⟨j, op, x, by simp, h⟩
      · exact .inl h
    · exact .inr ⟨j, op', y, by rw [upd_ne _ _ hji]; exact hj, hm⟩

theorem ninv_exec {clm : Nat → Tree K E} {m : Conf (G K E) (Op K E) (Res E) (Pt K E)} {H : List (Ev (Op K E) (Res E))}
    (h : (prog clm).mach.Exec m H) : NInv m.g m.view := by
  refine (prog clm).induct (fun g v _ => NInv g v) ?_ ?_ ?_ (fun _ _ _ _ _ _ h _ => h) h
  · constructor <;> simp [prog, new]
  · intro g v H i op hI hv
    have led : ∀ k t, Led g v k t → Led g (upd v i (some (op, .inl ((prog clm).begin op)))) k t := by
      rintro k t (h | ⟨j, op', y, hj, hm⟩)
      · exact .inl h
      · refine .inr ⟨j, op', y, ?_, hm⟩
        rw [upd_ne]; · exact hj
        rintro rfl; rw [hv] at hj; simp at hj
    constructor
    · intro j op' k t u hj
      by_cases hji : j = i
      · subst hji; cases op <;> simp [prog] at hj
      · rw [upd_ne _ _ hji] at hj; exact led _ _ (hI.wait j op' k t u hj)
    · intro k t hf; exact led _ _ (hI.flight k t hf)
    · intro j hj
      obtain ⟨op', x, h1, h2⟩ := hI.lock j hj
      refine ⟨op', x, ?_, h2⟩
      rw [upd_ne]; · exact h1
      rintro rfl; rw [hv] at h1; simp at h1
  · intro g v H i op s c g' x hI hv hs
    have e := effect (clm := clm) (op := op) hs
    constructor
    · intro j op' k t u hj
      by_cases hji : j = i
      · subst hji
        simp only [upd_same, Option.some.injEq, Prod.mk.injEq] at hj
        exact (hI.flight k t (e.wait k t u hj.2)).step hv e
      · rw [upd_ne _ _ hji] at hj; exact (hI.wait j op' k t u hj).step hv e
    · intro k t hf
      rcases e.flight k t hf with h | h
      · exact (hI.flight k t h).step hv e
      · exact .inr ⟨i, op, x, by simp, h⟩
    · intro j hj
      rcases e.lock j hj with ⟨rfl, h⟩ | ⟨h1, h2⟩
      · exact ⟨op, x, by simp, h⟩
      · obtain ⟨op', y, h3, h4⟩ := hI.lock j h1
        by_cases hji : j = i
        · subst hji
          rw [hv] at h3
          simp only [Option.some.injEq, Prod.mk.injEq] at h3
          obtain ⟨rfl, rfl⟩ := h3
          exact ⟨op, x, by simp, h2 h4⟩
        · exact ⟨op', y, by rw [upd_ne _ _ hji]; exact h3, h4⟩

/-! ### Without `Close` -/

/-- No `Close` call and no panic. -/
def calmX : Pt K E ⊕ Res E → Bool
  | .inl (.frame _ (.finish _ .panic) _) | .inl (.frame _ (.drop _ .panic) _) | .inl .lock | .inl (.closing _) | .inl (.method _ _)
  | .inr (.get .panic) | .inr .closed | .inr .closePanic => false
  | .inl (.frame _ _ u) => !u.closes
  | _ => true

/-- Proof only: part of an invariant or simulation; models no code. -/
structure Calm (g : G K E) (v : VN K E) : Prop where
  res : g.res ≠ none
  lock : g.wlock = none
  fin : ∀ t, g.fin t ≠ some .panic
  calm : ∀ i op x, v i = some (op, x) → calmX x = true

/-- No `Close` (resourcemanager.go:40) has been called. -/
def NoClose (H : List (Ev (Op K E) (Res E))) : Prop := ∀ i, Ev.inv i .close ∉ H

omit [DecidableEq K] in
theorem calm_leave {u : Under K E} {o : Outcome E} (h : u.closes = false) (ho : o ≠ .panic) : calmX (leave u o) = true := by
  cases u <;> cases o <;> simp_all [leave, calmX, Under.closes]

theorem calm_step {clm : Nat → Tree K E} {g : G K E} {v : VN K E} {i : Nat} {op : Op K E} {s : Pt K E} {c : Nat} {g' : G K E} {x : Pt K E ⊕ Res E}
    (hI : Calm g v) (hv : v i = some (op, .inl s)) (hs : step clm g i op s c = some (g', x)) : Calm g' (upd v i (some (op, x))) := by
  suffices h : g'.res ≠ none ∧ g'.wlock = none ∧ (∀ t, g'.fin t ≠ some .panic) ∧ calmX x = true by
    refine ⟨h.1, h.2.1, h.2.2.1, fun j op' y hj => ?_⟩
    by_cases hji : j = i
    · subst hji
      simp only [upd_same, Option.some.injEq, Prod.mk.injEq] at hj
      rw [← hj.2]; exact h.2.2.2
    · rw [upd_ne _ _ hji] at hj; exact hI.calm j op' y hj
  have hc := hI.calm i op _ hv
  have h1 := hI.res
  have h2 := hI.lock
  have h3 := hI.fin
  have hrem : ∀ k, (removal g k).1.res ≠ none ∧ (removal g k).1.wlock = none ∧ ∀ t, (removal g k).1.fin t ≠ some .panic := by
    intro k
    obtain ⟨e1, _, e3, _, e5⟩ := removal_same g k
    exact ⟨fun h => h1 (e5 h), by rw [e1, h2], by rw [e3]; exact h3⟩
  cases s with
  | frame k p u =>
    cases p with
    | start cr =>
      simp only [step, frameStep] at hs
      split at hs <;> simp only [Option.some.injEq, Prod.mk.injEq] at hs <;> obtain ⟨rfl, rfl⟩ := hs <;> simp_all [calmX]
    | wait t =>
      simp only [step, frameStep] at hs
      split at hs <;> simp only [Option.some.injEq, Prod.mk.injEq, reduceCtorEq] at hs
      obtain ⟨rfl, rfl⟩ := hs
      rename_i o ho
      exact ⟨h1, h2, h3, calm_leave (by simpa [calmX] using hc) fun e => h3 t (by rw [ho, e])⟩
    | lookup t cr =>
      simp only [step, frameStep] at hs
      split at hs
      · simp at hs
      · split at hs <;> simp only [Option.some.injEq, Prod.mk.injEq] at hs <;> obtain ⟨rfl, rfl⟩ := hs <;> simp_all [calmX]
    | creating t p =>
      cases p with
      | ret e => cases e <;> simp only [step, frameStep, Option.some.injEq, Prod.mk.injEq] at hs <;> obtain ⟨rfl, rfl⟩ := hs <;> simp_all [calmX]
      | get k' cr f =>
        simp only [step, frameStep, Option.some.injEq, Prod.mk.injEq] at hs
        obtain ⟨rfl, rfl⟩ := hs
        simp_all [calmX, Under.closes]
      | remove k' f =>
        simp only [step, frameStep] at hs
        split at hs
        · simp at hs
        · simp only [Option.some.injEq, Prod.mk.injEq] at hs
          obtain ⟨rfl, rfl⟩ := hs
          exact ⟨(hrem k').1, (hrem k').2.1, (hrem k').2.2, by simpa [calmX] using hc⟩
    | store t =>
      simp only [step, frameStep] at hs
      split at hs
      · simp at hs
      · split at hs <;> simp only [Option.some.injEq, Prod.mk.injEq] at hs <;> obtain ⟨rfl, rfl⟩ := hs <;> simp_all [calmX]
    | finish t o =>
      simp only [step, frameStep, Option.some.injEq, Prod.mk.injEq] at hs
      obtain ⟨rfl, rfl⟩ := hs
      refine ⟨h1, h2, ?_, ?_⟩
      · intro t'
        by_cases ht : t' = t
        · subst ht; cases o <;> simp_all [calmX]
        · simpa [upd_ne _ _ ht] using h3 t'
      · cases o <;> simp_all [calmX]
    | drop t o =>
      simp only [step, frameStep, Option.some.injEq, Prod.mk.injEq] at hs
      obtain ⟨rfl, rfl⟩ := hs
      refine ⟨h1, h2, h3, ?_⟩
      cases o with
      | panic => simp [calmX] at hc
      | got r => exact calm_leave (by simpa [calmX] using hc) (by simp)
      | failed e => exact calm_leave (by simpa [calmX] using hc) (by simp)
  | remove k =>
    simp only [step] at hs
    split at hs
    · simp at hs
    · simp only [Option.some.injEq, Prod.mk.injEq] at hs
      obtain ⟨rfl, rfl⟩ := hs
      exact ⟨(hrem k).1, (hrem k).2.1, (hrem k).2.2, rfl⟩
  | lock => simp [calmX] at hc
  | closing todo => simp [calmX] at hc
  | method todo p => simp [calmX] at hc

theorem calm_inv {clm : Nat → Tree K E} {g : G K E} {v : VN K E} {i : Nat} {op : Op K E} (hc : Calm g v) (ho : op ≠ .close) :
    Calm g (upd v i (some (op, .inl ((prog clm).begin op)))) := by
  refine ⟨hc.res, hc.lock, hc.fin, fun j op' x hj => ?_⟩
  by_cases hji : j = i
  · subst hji
    simp only [upd_same, Option.some.injEq, Prod.mk.injEq] at hj
    rw [← hj.2]
    cases op with
    | get k cr => rfl
    | remove k => rfl
    | close => exact absurd rfl ho
  · rw [upd_ne _ _ hji] at hj; exact hc.calm j op' x hj

theorem calm_exec {clm : Nat → Tree K E} {m : Conf (G K E) (Op K E) (Res E) (Pt K E)} {H : List (Ev (Op K E) (Res E))}
    (h : (prog clm).mach.Exec m H) (hn : NoClose H) : Calm m.g m.view := by
  refine (prog clm).induct (fun g v H => NoClose H → Calm g v) ?_ ?_ ?_ ?_ h hn
  · intro _; constructor <;> simp [prog, new]
  · intro g v H i op hI hv hH
    exact calm_inv (hI fun j hj => hH j (by simp [hj])) fun e => hH i (by simp [e])
  · intro g v H i op s c g' x hI hv hs hH
    exact calm_step (hI hH) hv hs
  · intro g v H i op r hI _ hH
    exact hI fun j hj => hH j (by simp [hj])

/-! ### Keys in order -/

variable {rk : K → Nat}

/-- Proof only: part of an invariant or simulation; models no code. -/
def Under.Ok (rk : K → Nat) (k : K) : Under K E → Prop
  | .user => True
  | .create k' _ f u => rk k < rk k' ∧ (∀ o, (f o).Below rk k') ∧ u.Ok rk k'
  | .close _ _ => False

/-- Proof only: part of an invariant or simulation; models no code. -/
def okX (rk : K → Nat) : Pt K E ⊕ Res E → Prop
  | .inl (.frame k p u) => u.Ok rk k ∧ match p with
    | .start q | .lookup _ q | .creating _ q => q.Below rk k
    | _ => True
  | .inl (.method _ p) => ∃ e, p = .ret e
  | .inr .closePanic => False
  | _ => True

omit [DecidableEq K] in
theorem ok_leave {k : K} {u : Under K E} (o : Outcome E) (h : u.Ok rk k) : okX rk (leave u o) := by
  cases u with
  | user => simp [leave, okX]
  | create k' t f u =>
    obtain ⟨_, h2, h3⟩ := h
    cases o <;> simp [leave, okX, h2, h3]
  | close _ _ => exact h.elim

theorem ok_step {clm : Nat → Tree K E} {g : G K E} {i : Nat} {op : Op K E} {s : Pt K E} {c : Nat} {g' : G K E}
    {x : Pt K E ⊕ Res E} (hcl : (∀ r, ∃ e, clm r = .ret e) ∨ calmX (.inl s : Pt K E ⊕ Res E) = true) (ho : okX rk (.inl s : Pt K E ⊕ Res E)) (hs : step clm g i op s c = some (g', x)) : okX rk x := by
  unfold step at hs
  split at hs
  · rename_i k p u
    unfold frameStep at hs
    split at hs
    · split at hs <;> simp only [Option.some.injEq, Prod.mk.injEq] at hs <;> rw [← hs.2] <;> simp_all [okX]
    · split at hs <;> simp only [Option.some.injEq, Prod.mk.injEq, reduceCtorEq] at hs
      rw [← hs.2]; exact ok_leave _ ho.1
    · split at hs
      · simp at hs
      · split at hs <;> simp only [Option.some.injEq, Prod.mk.injEq] at hs <;> rw [← hs.2] <;> simp_all [okX]
    · simp only [Option.some.injEq, Prod.mk.injEq] at hs; rw [← hs.2]; exact ⟨ho.1, trivial⟩
    · simp only [Option.some.injEq, Prod.mk.injEq] at hs; rw [← hs.2]; exact ⟨ho.1, trivial⟩
    · simp only [Option.some.injEq, Prod.mk.injEq] at hs
      rw [← hs.2]
      obtain ⟨h1, h2, h3, h4⟩ := ho
      exact ⟨⟨h2, h4, h1⟩, h3⟩
    · split at hs
      · simp at hs
      · simp only [Option.some.injEq, Prod.mk.injEq] at hs
        rw [← hs.2]
        exact ⟨ho.1, ho.2 _⟩
    · split at hs
      · simp at hs
      · split at hs <;> simp only [Option.some.injEq, Prod.mk.injEq] at hs <;> rw [← hs.2] <;> exact ⟨ho.1, trivial⟩
    · simp only [Option.some.injEq, Prod.mk.injEq] at hs; rw [← hs.2]; exact ⟨ho.1, trivial⟩
    · simp only [Option.some.injEq, Prod.mk.injEq] at hs; rw [← hs.2]; exact ok_leave _ ho.1
  · split at hs <;> simp only [Option.some.injEq, Prod.mk.injEq, reduceCtorEq] at hs; rw [← hs.2]; trivial
  · split at hs <;> simp only [Option.some.injEq, Prod.mk.injEq, reduceCtorEq] at hs; rw [← hs.2]; trivial
  · simp only [Option.some.injEq, Prod.mk.injEq] at hs; rw [← hs.2]; trivial
  · split at hs <;> simp only [Option.some.injEq, Prod.mk.injEq, reduceCtorEq] at hs; rw [← hs.2]
    rcases hcl with h | h
    · exact h _
    · simp [calmX] at h
  · simp only [Option.some.injEq, Prod.mk.injEq] at hs; rw [← hs.2]; trivial
  · obtain ⟨e, h⟩ := ho; simp at h
  · obtain ⟨e, h⟩ := ho; simp at h

/-- The create functions given to the `Get` calls of a history keep to the order of keys. -/
def Ordered (rk : K → Nat) (H : List (Ev (Op K E) (Res E))) : Prop := ∀ i k create, Ev.inv i (.get k create) ∈ H → create.Below rk k

theorem ok_exec {clm : Nat → Tree K E} {m : Conf (G K E) (Op K E) (Res E) (Pt K E)} {H : List (Ev (Op K E) (Res E))} (h : (prog clm).mach.Exec m H)
    (hcl : (∀ r, ∃ e, clm r = .ret e) ∨ NoClose H) (hH : Ordered rk H) : ∀ i op x, m.view i = some (op, x) → okX rk x := by
  refine ((prog clm).induct (fun g v H => ((∀ r, ∃ e, clm r = .ret e) ∨ NoClose H) → Ordered rk H →
    (∀ i op x, v i = some (op, x) → okX rk x) ∧ ((∀ r, ∃ e, clm r = .ret e) ∨ Calm g v)) ?_ ?_ ?_ ?_ h hcl hH).1
  · intro _ _; exact ⟨by simp, .inr (by constructor <;> simp [prog, new])⟩
  · intro g v H i op hI hv hc hH
    obtain ⟨h1, h2⟩ := hI (hc.imp id fun h j hj => h j (by simp [hj])) fun i k cr hm => hH i k cr (by simp [hm])
    constructor
    · intro j op' x hj
      by_cases hji : j = i
      · subst hji
        simp only [upd_same, Option.some.injEq, Prod.mk.injEq] at hj
        obtain ⟨rfl, rfl⟩ := hj
        cases op with
        | get k cr => exact ⟨trivial, hH j k cr (by simp)⟩
        | remove k => trivial
        | close => trivial
      · rw [upd_ne _ _ hji] at hj
        exact h1 j op' x hj
    · rcases hc with hc | hc
      · exact .inl hc
      · rcases h2 with h2 | h2
        · exact .inl h2
        · exact .inr (calm_inv h2 fun e => hc i (by simp [e]))
  · intro g v H i op s c g' x hI hv hs hc hH
    obtain ⟨h1, h2⟩ := hI hc hH
    refine ⟨fun j op' y hj => ?_, h2.imp id fun h => calm_step h hv hs⟩
    by_cases hji : j = i
    · subst hji
      simp only [upd_same, Option.some.injEq, Prod.mk.injEq] at hj
      obtain ⟨rfl, rfl⟩ := hj
      exact ok_step (op := op) (h2.imp id fun h => h.calm j op _ hv) (h1 j op _ hv) hs
    · rw [upd_ne _ _ hji] at hj; exact h1 j op' y hj
  · intro g v H i op r hI _ hc hH
    exact hI (hc.imp id fun h j hj => h j (by simp [hj])) fun i k cr hm => hH i k cr (by simp [hm])

omit [DecidableEq K] in
theorem Under.above : ∀ {u : Under K E} {k : K}, u.Ok rk k → ∀ k' t, (k', t) ∈ u.leads → rk k < rk k'
  | .user, _, _, _, _, h => by simp [Under.leads] at h
  | .close _ _, _, h, _, _, _ => h.elim
  | .create k1 t1 f u, k, ⟨h1, _, h3⟩, k', t, h => by
    simp only [Under.leads, List.mem_cons, Prod.mk.injEq] at h
    rcases h with ⟨rfl, rfl⟩ | h
    · exact h1
    · exact Nat.lt_trans h1 (Under.above h3 k' t h)

theorem can_move {clm : Nat → Tree K E} {g : G K E} {i : Nat} {op : Op K E} {s : Pt K E} (hw : g.wlock = none)
    (hs : ∀ k t u, s = .frame k (.wait t) u → (g.fin t).isSome = true) : step clm g i op s 0 ≠ none := by
  cases s with
  | frame k p u =>
    cases p with
    | start cr => simp only [step, frameStep]; split <;> simp
    | wait t =>
      have := hs k t u rfl
      rw [Option.isSome_iff_exists] at this
      obtain ⟨o, ho⟩ := this
      simp [step, frameStep, ho]
    | lookup t cr => simp only [step, frameStep, hw]; simp; split <;> simp
    | creating t p =>
      cases p with
      | ret e => cases e <;> simp [step, frameStep]
      | get k' cr f => simp [step, frameStep]
      | remove k' f => simp [step, frameStep, hw]
    | store t => simp only [step, frameStep, hw]; simp; split <;> simp
    | finish t o => simp [step, frameStep]
    | drop t o => simp [step, frameStep]
  | remove k => simp [step, hw]
  | lock => simp [step, hw]
  | closing todo => cases todo <;> simp [step]
  | method todo p => cases p <;> simp [step, hw]

omit [DecidableEq K] in
theorem pc_of_view {m : Conf (G K E) (Op K E) (Res E) (Pt K E)} {i : Nat} {op : Op K E} {s : Pt K E} (h : m.view i = some (op, .inl s)) :
    m.pc i = .at op s := by
  simp only [Conf.view] at h
  cases hq : m.pc i <;> simp [hq, Proc.view] at h
  rw [h.1, h.2]

theorem moves {clm : Nat → Tree K E} {m : Conf (G K E) (Op K E) (Res E) (Pt K E)} {i : Nat} {op : Op K E} {s : Pt K E} {c : Nat}
    (hv : m.view i = some (op, .inl s)) (hs : step clm m.g i op s c ≠ none) : (prog clm).mach.next m i c ≠ none := by
  simp only [Prog.mach, pc_of_view hv]
  cases hst : (prog clm).step m.g i op s c with
  | none => exact absurd hst hs
  | some y => obtain ⟨g', x⟩ := y; cases x <;> simp

/-- **C114, the part that holds.** Create functions may use the manager: if they call `Get` only with keys that come before their own in some order,
the `Close` methods of resources do not use the manager (or `Close` is not called) and no `Get` has panicked, there is no dead-lock: as long as a
call has not returned, some call can go on. -/
theorem C114_no_deadlock_partial {clm : Nat → Tree K E} {m : Conf (G K E) (Op K E) (Res E) (Pt K E)}
    {H : List (Ev (Op K E) (Res E))} (h : (prog clm).mach.Exec m H) (hcl : (∀ r, ∃ e, clm r = .ret e) ∨ NoClose H) (hH : Ordered rk H)
    (hp : ∀ j, Ev.ret j (.get .panic) ∉ H)
    {i : Nat} {op : Op K E} (hi : Ev.inv i op ∈ H) (hr : ∀ r, Ev.ret i r ∉ H) : ∃ j c, (prog clm).mach.next m j c ≠ none := by
  have hN := ninv_exec h
  have hO := ok_exec h hcl hH
  have wait : ∀ n k t u j op, rk k = n → m.g.wlock = none → m.view j = some (op, .inl (.frame k (.wait t) u)) → ∃ j c, (prog clm).mach.next m j c ≠ none := by
    intro n
    induction n using Nat.strongRecOn with
    | ind n ih =>
      intro k t u j op hk hw hj
      by_cases hf : (m.g.fin t).isSome = true
      · exact ⟨j, 0, moves hj (can_move hw (by rintro _ _ _ ⟨⟩; exact hf))⟩
      · rcases hN.wait j op k t u hj with h1 | ⟨l, op', x, hl, hm⟩
        · exact absurd h1 hf
        · cases x with
          | inr r => simp [leads] at hm
          | inl s =>
            by_cases hs : ∃ k' t' u', s = .frame k' (.wait t') u'
            · obtain ⟨k', t', u', rfl⟩ := hs
              have h1 := Under.above (hO l _ _ hl).1 k t hm
              exact ih _ (hk ▸ h1) k' t' u' l op' rfl hw hl
            · exact ⟨l, 0, moves hl (can_move hw fun k t u e => absurd ⟨k, t, u, e⟩ hs)⟩
  cases hw : m.g.wlock with
  | none =>
    rcases (prog clm).pending h hi hr with ⟨s, hp⟩ | ⟨r, hp⟩
    · have hv : m.view i = some (op, .inl s) := by simp [Conf.view, hp, Proc.view]
      by_cases hs : ∃ k' t' u', s = .frame k' (.wait t') u'
      · obtain ⟨k', t', u', rfl⟩ := hs
        exact wait _ k' t' u' i op rfl hw hv
      · exact ⟨i, 0, moves hv (can_move hw fun k t u e => absurd ⟨k, t, u, e⟩ hs)⟩
    · exact ⟨i, 0, by simp [Prog.mach, hp]⟩
  | some j =>
    obtain ⟨op', x, hv, hh⟩ := hN.lock j hw
    have hok := hO j op' x hv
    cases x with
    | inl s =>
      refine ⟨j, 0, moves hv ?_⟩
      cases s with
      | frame k p u =>
        have hu : u.closes = false := by
          have : ∀ (u : Under K E) k, u.Ok rk k → u.closes = false := by
            intro u
            induction u with
            | user => intros; rfl
            | create _ _ _ u ih => intro k h; exact ih _ h.2.2
            | close _ _ => intro k h; exact h.elim
          exact this u k hok.1
        cases p <;> simp [holds, hu] at hh <;> simp [step, frameStep]
      | remove k => simp [holds] at hh
      | lock => simp [holds] at hh
      | closing todo => cases todo <;> simp [step]
      | method todo p => obtain ⟨e, rfl⟩ := hok; simp [step]
    | inr r =>
      simp only [Conf.view] at hv
      cases hq : m.pc j with
      | idle => simp [hq, Proc.view] at hv
      | «at» _ _ => simp [hq, Proc.view] at hv
      | ret _ _ => exact ⟨j, 0, by simp [Prog.mach, hq]⟩
      | done o r' =>
        simp only [hq, Proc.view, Option.some.injEq, Prod.mk.injEq, Sum.inr.injEq] at hv
        obtain ⟨rfl, rfl⟩ := hv
        cases r' with
        | get o => cases o <;> simp [holds] at hh; exact absurd ((prog clm).done_mem h hq) (hp j)
        | removed b => simp [holds] at hh
        | closed => simp [holds] at hh
        | closePanic => exact hok.elim

/-- **C114.** A manager that is not closed: whatever the user functions do with it, no `Get` panics. -/
theorem C114_no_panic {clm : Nat → Tree K E} {m : Conf (G K E) (Op K E) (Res E) (Pt K E)} {H : List (Ev (Op K E) (Res E))}
    (h : (prog clm).mach.Exec m H) (hn : NoClose H) (j : Nat) : Ev.ret j (.get .panic) ∉ H := by
  intro hj
  obtain ⟨op, hv⟩ := ((prog clm).hist h).2 j _ hj
  have := (calm_exec h hn).calm j _ _ hv
  simp [calmX] at this

/-- **C114, the part that holds.** As long as the manager is not closed and the create functions keep to an order of the keys, every call returns,
under every schedule: an execution cannot go on for ever without new calls, and when it cannot go on, all calls have returned. -/
theorem C114_returns_partial {clm : Nat → Tree K E} {m : Conf (G K E) (Op K E) (Res E) (Pt K E)} {H : List (Ev (Op K E) (Res E))}
    (h : (prog clm).mach.Exec m H) (hH : Ordered rk H) (hn : NoClose H) :
    Acc (prog clm).Moves m ∧ ((∀ j c, (prog clm).mach.next m j c = none) → ∀ i op, Ev.inv i op ∈ H → ∃ r, Ev.ret i r ∈ H) := by
  refine ⟨C114_ends h, fun hstuck i op hi => ?_⟩
  by_contra hr
  obtain ⟨j, c, hjc⟩ := C114_no_deadlock_partial h (.inr hn) hH (C114_no_panic h hn) hi fun r hr' => hr ⟨r, hr'⟩
  exact hjc (hstuck j c)

/-! ## Create functions are called once -/

/-- The flight that has created a resource for the key since the last removal. -/
def pend (k : K) (log : List (LogEv K)) : Option Nat :=
  log.foldl (fun cur ev => match ev with
    | .created k' r => if k' = k then some r else cur
    | .removed k' _ => if k' = k then none else cur
    | _ => cur) none

theorem held_snoc (k : K) (log : List (LogEv K)) (e : LogEv K) : held k (log ++ [e]) = match e with
    | .stored k' r => if k' = k then some r else held k log
    | .removed k' _ => if k' = k then none else held k log
    | _ => held k log := by
  simp only [held, List.foldl_append, List.foldl_cons, List.foldl_nil]
  cases e <;> rfl

theorem pend_snoc (k : K) (log : List (LogEv K)) (e : LogEv K) : pend k (log ++ [e]) = match e with
    | .created k' r => if k' = k then some r else pend k log
    | .removed k' _ => if k' = k then none else pend k log
    | _ => pend k log := by
  simp only [pend, List.foldl_append, List.foldl_cons, List.foldl_nil]

theorem pend_removed {k : K} {t : Nat} {l₁ : List (LogEv K)} : ∀ l₂, pend k (l₁ ++ .created k t :: l₂) = none → ∃ r, LogEv.removed k r ∈ l₂ := by
  intro l₂
  induction l₂ using List.reverseRecOn with
  | nil => intro h; rw [pend_snoc] at h; simp at h
  | append_singleton l e ih =>
    intro h
    rw [← List.cons_append, ← List.append_assoc, pend_snoc] at h
    cases e with
    | created k' r =>
      simp only at h
      split at h
      · simp at h
      · obtain ⟨r, hr⟩ := ih h; exact ⟨r, by simp [hr]⟩
    | stored k' r => obtain ⟨r, hr⟩ := ih h; exact ⟨r, by simp [hr]⟩
    | removed k' r =>
      simp only at h
      split at h
      · rename_i e; subst e; exact ⟨r, by simp⟩
      · obtain ⟨r, hr⟩ := ih h; exact ⟨r, by simp [hr]⟩

theorem once_snoc {log : List (LogEv K)} {e : LogEv K} (h : ∀ k t l₁ l₂, log = l₁ ++ .created k t :: l₂ → pend k l₁ = none)
    (he : ∀ k t, e = .created k t → pend k log = none) {k : K} {t : Nat} {l₁ l₂ : List (LogEv K)} (hl : log ++ [e] = l₁ ++ .created k t :: l₂) :
    pend k l₁ = none := by
  rcases List.eq_nil_or_concat l₂ with rfl | ⟨l, b, rfl⟩
  · have := List.append_inj' hl rfl
    simp only [List.cons.injEq, and_true] at this
    rw [← this.1]; exact he k t this.2
  · rw [List.concat_eq_append, ← List.cons_append, ← List.append_assoc] at hl
    have := List.append_inj' hl rfl
    exact h k t l₁ l this.1

/-- The flights led by a goroutine, innermost first, each with its stage: 0 before the lookup, 1 in the create function, 2 with a new resource,
3 with an outcome. -/
def Under.flights : Under K E → List (K × Nat × Nat)
  | .create k t _ u => (k, t, 1) :: u.flights
  | _ => []

/-- Proof only: the `create`s that a call is in, from the outermost, with their stages. -/
def flights : Pt K E ⊕ Res E → List (K × Nat × Nat)
  | .inl (.frame k p u) => match p with
    | .lookup t _ => (k, t, 0) :: u.flights
    | .creating t _ => (k, t, 1) :: u.flights
    | .store t => (k, t, 2) :: u.flights
    | .finish t _ | .drop t _ => (k, t, 3) :: u.flights
    | _ => u.flights
  | _ => []

omit [DecidableEq K] in
theorem flights_leave {u : Under K E} {o : Outcome E} (ho : o ≠ .panic) : flights (leave u o) = u.flights := by
  cases u <;> cases o <;> simp_all [leave, flights, Under.flights]

/-- Proof only: the `create`s that each call is in. -/
def flightsOf (v : VN K E) : Nat → List (K × Nat × Nat) := fun i => match v i with
  | some y => flights y.2
  | none => []

/-- Proof only: part of an invariant or simulation; models no code. -/
structure FInv (flight : K → Option Nat) (log : List (LogEv K)) (F : Nat → List (K × Nat × Nat)) : Prop where
  cur : ∀ i k t s, (k, t, s) ∈ F i → flight k = some t
  nodup : ∀ i, ((F i).map (·.1)).Nodup
  one : ∀ i j k t s t' s', (k, t, s) ∈ F i → (k, t', s') ∈ F j → i = j
  miss : ∀ i k t s, (k, t, s) ∈ F i → s = 1 ∨ s = 2 → held k log = none
  pend : ∀ k t, pend k log = some t → held k log = some t ∨ ∃ i, (k, t, 2) ∈ F i
  once : ∀ k t l₁ l₂, log = l₁ ++ .created k t :: l₂ → ResManNest.pend k l₁ = none

theorem FInv.uniq {flight : K → Option Nat} {log : List (LogEv K)} {F : Nat → List (K × Nat × Nat)} (h : FInv flight log F) {i : Nat} {k : K}
    {t s : Nat} {r : List (K × Nat × Nat)} (hi : F i = (k, t, s) :: r) {j t' s' : Nat} (hj : (k, t', s') ∈ F j) : j = i ∧ t' = t ∧ s' = s := by
  have e := h.one j i k t' s' t s hj (by simp [hi])
  subst e
  have hn := h.nodup j
  rw [hi] at hn hj
  simp only [List.map_cons, List.nodup_cons, List.mem_map, not_exists, not_and] at hn
  simp only [List.mem_cons, Prod.mk.injEq, true_and] at hj
  rcases hj with hj | hj
  · exact ⟨rfl, hj⟩
  · exact absurd rfl (hn.1 _ hj)

/-- The stage of the innermost flight changes, and the log with regard to its key. -/
theorem FInv.stage {flight : K → Option Nat} {log log' : List (LogEv K)} {F : Nat → List (K × Nat × Nat)} (h : FInv flight log F) {i : Nat} {k : K}
    {t s s' : Nat} {r : List (K × Nat × Nat)} (hi : F i = (k, t, s) :: r)
    (hother : ∀ k', k' ≠ k → held k' log' = held k' log ∧ ResManNest.pend k' log' = ResManNest.pend k' log)
    (hmiss : s' = 1 ∨ s' = 2 → held k log' = none)
    (hpend : ∀ t1, ResManNest.pend k log' = some t1 → held k log' = some t1 ∨ (t1 = t ∧ s' = 2))
    (honce : ∀ k t l₁ l₂, log' = l₁ ++ .created k t :: l₂ → ResManNest.pend k l₁ = none) : FInv flight log' (upd F i ((k, t, s') :: r)) := by
  have keys : ∀ j k1 t1 s1, (k1, t1, s1) ∈ upd F i ((k, t, s') :: r) j → ((k1, t1, s1) ∈ F j ∧ k1 ≠ k) ∨ (j = i ∧ k1 = k ∧ t1 = t ∧ s1 = s') := by
    intro j k1 t1 s1 hm
    by_cases hj : j = i
    · subst hj
      rw [upd_same, List.mem_cons, Prod.mk.injEq, Prod.mk.injEq] at hm
      rcases hm with ⟨rfl, rfl, rfl⟩ | hm
      · exact .inr ⟨rfl, rfl, rfl, rfl⟩
      · refine .inl ⟨by rw [hi]; exact .tail _ hm, ?_⟩
        rintro rfl
        have hn := h.nodup j
        rw [hi] at hn
        simp only [List.map_cons, List.nodup_cons, List.mem_map, not_exists, not_and] at hn
        exact hn.1 _ hm rfl
    · rw [upd_ne _ _ hj] at hm
      refine .inl ⟨hm, ?_⟩
      rintro rfl
      exact hj (h.uniq hi hm).1
  constructor
  · intro j k1 t1 s1 hm
    rcases keys j k1 t1 s1 hm with ⟨hm, _⟩ | ⟨rfl, rfl, rfl, rfl⟩
    · exact h.cur j k1 t1 s1 hm
    · exact h.cur j k1 t1 s (by simp [hi])
  · intro j
    by_cases hj : j = i
    · subst hj; have := h.nodup j; rw [hi] at this; simpa using this
    · rw [upd_ne _ _ hj]; exact h.nodup j
  · intro j j' k1 t1 s1 t2 s2 hm hm'
    rcases keys j k1 t1 s1 hm with ⟨hm, hk⟩ | ⟨rfl, rfl, rfl, rfl⟩ <;> rcases keys j' k1 t2 s2 hm' with ⟨hm', hk'⟩ | ⟨e1, e2, _⟩
    · exact h.one j j' k1 t1 s1 t2 s2 hm hm'
    · exact absurd e2 hk
    · exact absurd rfl hk'
    · exact e1.symm
  · intro j k1 t1 s1 hm hs
    rcases keys j k1 t1 s1 hm with ⟨hm, hk⟩ | ⟨rfl, rfl, rfl, rfl⟩
    · rw [(hother k1 hk).1]; exact h.miss j k1 t1 s1 hm hs
    · exact hmiss hs
  · intro k1 t1 hp
    by_cases hk : k1 = k
    · subst hk
      rcases hpend t1 hp with h1 | ⟨rfl, rfl⟩
      · exact .inl h1
      · exact .inr ⟨i, by simp⟩
    · obtain ⟨e1, e2⟩ := hother k1 hk
      rw [e2] at hp
      rcases h.pend k1 t1 hp with h1 | ⟨j, h1⟩
      · exact .inl (by rw [e1]; exact h1)
      · refine .inr ⟨j, ?_⟩
        by_cases hj : j = i
        · subst hj
          rw [hi] at h1
          simp only [List.mem_cons, Prod.mk.injEq] at h1
          rcases h1 with ⟨rfl, _⟩ | h1
          · exact absurd rfl hk
          · simp [h1]
        · rw [upd_ne _ _ hj]; exact h1
  · exact honce

/-- Nothing created lately unless held: at a stage before 2 the flight's key has no pending creation if it is not held. -/
theorem FInv.noPend {flight : K → Option Nat} {log : List (LogEv K)} {F : Nat → List (K × Nat × Nat)} (h : FInv flight log F) {i : Nat} {k : K}
    {t s : Nat} {r : List (K × Nat × Nat)} (hi : F i = (k, t, s) :: r) (hs : s ≠ 2) (t1 : Nat) (hp : ResManNest.pend k log = some t1) :
    held k log = some t1 := by
  rcases h.pend k t1 hp with h1 | ⟨j, h1⟩
  · exact h1
  · exact absurd (h.uniq hi h1).2.2.symm hs

theorem FInv.push {flight : K → Option Nat} {log : List (LogEv K)} {F : Nat → List (K × Nat × Nat)} (h : FInv flight log F) {i : Nat} {k : K}
    {t : Nat} (hk : flight k = none) : FInv (fun k' => if k' = k then some t else flight k') log (upd F i ((k, t, 0) :: F i)) := by
  have hno : ∀ j t s, (k, t, s) ∉ F j := fun j t s hm => by rw [h.cur j k t s hm] at hk; simp at hk
  have keys : ∀ j k1 t1 s1, (k1, t1, s1) ∈ upd F i ((k, t, 0) :: F i) j → ((k1, t1, s1) ∈ F j ∧ k1 ≠ k) ∨ (j = i ∧ k1 = k ∧ t1 = t ∧ s1 = 0) := by
    intro j k1 t1 s1 hm
    by_cases hj : j = i
    · subst hj
      rw [upd_same, List.mem_cons, Prod.mk.injEq, Prod.mk.injEq] at hm
      rcases hm with ⟨rfl, rfl, rfl⟩ | hm
      · exact .inr ⟨rfl, rfl, rfl, rfl⟩
      · exact .inl ⟨hm, by rintro rfl; exact hno _ _ _ hm⟩
    · rw [upd_ne _ _ hj] at hm
      exact .inl ⟨hm, by rintro rfl; exact hno _ _ _ hm⟩
  constructor
  · intro j k1 t1 s1 hm
    rcases keys j k1 t1 s1 hm with ⟨hm, hk1⟩ | ⟨rfl, rfl, rfl, rfl⟩
    · simp only [hk1, if_false]; exact h.cur j k1 t1 s1 hm
    · simp
  · intro j
    by_cases hj : j = i
    · subst hj
      rw [upd_same, List.map_cons, List.nodup_cons]
      refine ⟨?_, h.nodup j⟩
      simp only [List.mem_map, not_exists, not_and]
      rintro ⟨k1, t1, s1⟩ hm rfl
      exact hno _ _ _ hm
    · rw [upd_ne _ _ hj]; exact h.nodup j
  · intro j j' k1 t1 s1 t2 s2 hm hm'
    rcases keys j k1 t1 s1 hm with ⟨hm, hk⟩ | ⟨rfl, rfl, rfl, rfl⟩ <;> rcases keys j' k1 t2 s2 hm' with ⟨hm', hk'⟩ | ⟨e1, e2, _⟩
    · exact h.one j j' k1 t1 s1 t2 s2 hm hm'
    · exact absurd e2 hk
    · exact absurd rfl hk'
    · exact e1.symm
  · intro j k1 t1 s1 hm hs
    rcases keys j k1 t1 s1 hm with ⟨hm, _⟩ | ⟨rfl, rfl, rfl, rfl⟩
    · exact h.miss j k1 t1 s1 hm hs
    · simp at hs
  · intro k1 t1 hp
    rcases h.pend k1 t1 hp with h1 | ⟨j, h1⟩
    · exact .inl h1
    · refine .inr ⟨j, ?_⟩
      by_cases hj : j = i
      · subst hj; simp [h1]
      · rw [upd_ne _ _ hj]; exact h1
  · exact h.once

theorem FInv.pop {flight : K → Option Nat} {log : List (LogEv K)} {F : Nat → List (K × Nat × Nat)} (h : FInv flight log F) {i : Nat} {k : K}
    {t : Nat} {r : List (K × Nat × Nat)} (hi : F i = (k, t, 3) :: r) : FInv (fun k' => if k' = k then none else flight k') log (upd F i r) := by
  have sub : ∀ j k1 t1 s1, (k1, t1, s1) ∈ upd F i r j → (k1, t1, s1) ∈ F j ∧ k1 ≠ k := by
    intro j k1 t1 s1 hm
    by_cases hj : j = i
    · subst hj
      rw [upd_same] at hm
      refine ⟨by rw [hi]; exact .tail _ hm, ?_⟩
      rintro rfl
      have hn := h.nodup j
      rw [hi] at hn
      simp only [List.map_cons, List.nodup_cons, List.mem_map, not_exists, not_and] at hn
      exact hn.1 _ hm rfl
    · rw [upd_ne _ _ hj] at hm
      exact ⟨hm, by rintro rfl; exact hj (h.uniq hi hm).1⟩
  constructor
  · intro j k1 t1 s1 hm
    obtain ⟨h1, h2⟩ := sub j k1 t1 s1 hm
    simp only [h2, if_false]; exact h.cur j k1 t1 s1 h1
  · intro j
    by_cases hj : j = i
    · subst hj
      have hn := h.nodup j
      rw [hi] at hn
      rw [upd_same]
      simp only [List.map_cons, List.nodup_cons] at hn
      exact hn.2
    · rw [upd_ne _ _ hj]; exact h.nodup j
  · intro j j' k1 t1 s1 t2 s2 hm hm'
    exact h.one j j' k1 t1 s1 t2 s2 (sub j _ _ _ hm).1 (sub j' _ _ _ hm').1
  · intro j k1 t1 s1 hm hs; exact h.miss j k1 t1 s1 (sub j _ _ _ hm).1 hs
  · intro k1 t1 hp
    rcases h.pend k1 t1 hp with h1 | ⟨j, h1⟩
    · exact .inl h1
    · refine .inr ⟨j, ?_⟩
      by_cases hj : j = i
      · subst hj
        rw [hi] at h1
        simpa using h1
      · rw [upd_ne _ _ hj]; exact h1
  · exact h.once

/-- A removal. -/
theorem FInv.rem {flight : K → Option Nat} {log : List (LogEv K)} {F : Nat → List (K × Nat × Nat)} (h : FInv flight log F) (k : K) (r : Nat) :
    FInv flight (log ++ [.removed k r]) F := by
  refine ⟨h.cur, h.nodup, h.one, ?_, ?_, ?_⟩
  · intro j k1 t1 s1 hm hs
    rw [held_snoc]
    simp only
    split
    · rfl
    · exact h.miss j k1 t1 s1 hm hs
  · intro k1 t1 hp
    rw [pend_snoc] at hp
    rw [held_snoc]
    simp only at hp ⊢
    split at hp
    · simp at hp
    · rename_i hk; simp only [hk, if_false]; exact h.pend k1 t1 hp
  · intro k1 t1 l₁ l₂ hl
    exact once_snoc h.once (by simp) hl

omit [DecidableEq K] in
theorem flightsOf_upd (v : VN K E) (i : Nat) (op : Op K E) (x : Pt K E ⊕ Res E) : flightsOf (upd v i (some (op, x))) = upd (flightsOf v) i (flights x) := by
  funext j
  by_cases h : j = i
  · subst h; simp [flightsOf]
  · simp [flightsOf, upd_ne _ _ h]

omit [DecidableEq K] in
theorem flightsOf_at {v : VN K E} {i : Nat} {op : Op K E} {x : Pt K E ⊕ Res E} (h : v i = some (op, x)) : flightsOf v i = flights x := by
  simp [flightsOf, h]

/-- Proof only: part of an invariant or simulation; models no code. -/
structure OInv (g : G K E) (v : VN K E) : Prop where
  calm : Calm g v
  fl : FInv g.flight g.log (flightsOf v)
  res : ∀ l, g.res = some l → ∀ k, find l k = held k g.log

theorem upd_id {α : Type} (F : Nat → α) (i : Nat) : upd F i (F i) = F := by
  funext j; by_cases h : j = i
  · subst h; simp
  · simp [upd_ne _ _ h]

theorem OInv.removal {g : G K E} {v : VN K E} (h : OInv g v) (k : K) : FInv (removal g k).1.flight (removal g k).1.log (flightsOf v) ∧
    ∀ l, (ResManNest.removal g k).1.res = some l → ∀ k', find l k' = held k' (ResManNest.removal g k).1.log := by
  obtain ⟨l, hl⟩ := Option.ne_none_iff_exists'.mp h.calm.res
  simp only [ResManNest.removal, hl]
  cases hf : find l k with
  | none => exact ⟨h.fl, by simpa [hl] using h.res l hl⟩
  | some r =>
    refine ⟨h.fl.rem k r, ?_⟩
    simp only [Option.some.injEq]
    rintro _ rfl k'
    rw [ResMan.find_erase, held_snoc]
    simp only [h.res l hl k']
    by_cases e : k' = k
    · subst e; simp
    · simp [e, Ne.symm e]

theorem oinv_step {clm : Nat → Tree K E} {g : G K E} {v : VN K E} {i : Nat} {op : Op K E} {s : Pt K E} {c : Nat} {g' : G K E} {x : Pt K E ⊕ Res E}
    (hI : OInv g v) (hv : v i = some (op, .inl s)) (hs : step clm g i op s c = some (g', x)) : OInv g' (upd v i (some (op, x))) := by
  suffices h : FInv g'.flight g'.log (flightsOf (upd v i (some (op, x)))) ∧ ∀ l, g'.res = some l → ∀ k, find l k = held k g'.log from
    ⟨calm_step hI.calm hv hs, h.1, h.2⟩
  rw [flightsOf_upd]
  have hF := flightsOf_at hv
  have hc := hI.calm.calm i op _ hv
  have hw := hI.calm.lock
  have fl := hI.fl
  have hr := hI.res
  have same : ∀ {y : Pt K E ⊕ Res E}, flights y = flights (.inl s) → FInv g.flight g.log (upd (flightsOf v) i (flights y)) := by
    intro y e; rw [e, ← hF, upd_id]; exact fl
  cases s with
  | frame k p u =>
    cases p with
    | start cr =>
      simp only [step, frameStep] at hs
      split at hs <;> simp only [Option.some.injEq, Prod.mk.injEq] at hs <;> obtain ⟨rfl, rfl⟩ := hs
      · exact ⟨same rfl, hr⟩
      · rename_i hk
        refine ⟨?_, hr⟩
        have := fl.push (i := i) (t := g.next) hk
        rwa [hF] at this
    | wait t =>
      simp only [step, frameStep] at hs
      split at hs <;> simp only [Option.some.injEq, Prod.mk.injEq, reduceCtorEq] at hs
      obtain ⟨rfl, rfl⟩ := hs
      rename_i o ho
      have ne : o ≠ .panic := fun e => hI.calm.fin t (by rw [ho, e])
      exact ⟨same (flights_leave ne), hr⟩
    | lookup t cr =>
      simp only [step, frameStep, hw] at hs
      obtain ⟨l, hl⟩ := Option.ne_none_iff_exists'.mp hI.calm.res
      simp only [hl, Option.bind_some, Option.isSome_none, Bool.false_eq_true, if_false] at hs
      have hno := fl.noPend hF (by simp)
      split at hs <;> rename_i hfd <;> simp only [Option.some.injEq, Prod.mk.injEq] at hs <;> obtain ⟨rfl, rfl⟩ := hs
      · exact ⟨fl.stage hF (fun _ _ => ⟨rfl, rfl⟩) (by simp) (fun t1 h1 => .inl (hno t1 h1)) fl.once, hr⟩
      · exact ⟨fl.stage hF (fun _ _ => ⟨rfl, rfl⟩) (fun _ => by rw [← hr l hl]; exact hfd) (fun t1 h1 => .inl (hno t1 h1)) fl.once, hr⟩
    | creating t p =>
      have hno := fl.noPend hF (by simp)
      have hmiss := fl.miss i k t 1 (by rw [hF]; simp [flights]) (.inl rfl)
      cases p with
      | ret e =>
        cases e <;> simp only [step, frameStep, Option.some.injEq, Prod.mk.injEq] at hs <;> obtain ⟨rfl, rfl⟩ := hs
        · refine ⟨fl.stage hF ?_ ?_ ?_ ?_, ?_⟩
          · intro k' hk'; rw [held_snoc, pend_snoc]; simp [Ne.symm hk']
          · intro _; rw [held_snoc]; exact hmiss
          · intro t1 h1; rw [pend_snoc] at h1; simp at h1; exact .inr ⟨h1.symm, rfl⟩
          · intro k1 t1 l₁ l₂ hl
            refine once_snoc fl.once ?_ hl
            intro k2 t2 e
            cases e
            cases hp : pend k g.log with
            | none => rfl
            | some t3 => have := hno t3 hp; rw [hmiss] at this; simp at this
          · intro l hl k'; rw [held_snoc]; exact hr l hl k'
        · exact ⟨fl.stage hF (fun _ _ => ⟨rfl, rfl⟩) (by simp) (fun t1 h1 => .inl (hno t1 h1)) fl.once, hr⟩
      | get k' cr f =>
        simp only [step, frameStep, Option.some.injEq, Prod.mk.injEq] at hs
        obtain ⟨rfl, rfl⟩ := hs
        exact ⟨same rfl, hr⟩
      | remove k' f =>
        simp only [step, frameStep] at hs
        split at hs
        · simp at hs
        · simp only [Option.some.injEq, Prod.mk.injEq] at hs
          obtain ⟨rfl, rfl⟩ := hs
          refine ⟨?_, (hI.removal k').2⟩
          have h1 := (hI.removal k').1
          have e : flights (.inl (.frame k (.creating t (f (removal g k').2)) u) : Pt K E ⊕ Res E) = flightsOf v i := by rw [hF]; rfl
          rw [e, upd_id]; exact h1
    | store t =>
      obtain ⟨l, hl⟩ := Option.ne_none_iff_exists'.mp hI.calm.res
      simp only [step, frameStep, hw, hl, Option.isSome_none, Bool.false_eq_true, if_false, Option.some.injEq, Prod.mk.injEq] at hs
      obtain ⟨rfl, rfl⟩ := hs
      have hmiss := fl.miss i k t 2 (by rw [hF]; simp [flights]) (.inr rfl)
      refine ⟨fl.stage hF ?_ (by simp) ?_ ?_, ?_⟩
      · intro k' hk'; rw [held_snoc, pend_snoc]; simp [Ne.symm hk']
      · intro t1 h1
        rw [pend_snoc] at h1
        rw [held_snoc]
        rcases fl.pend k t1 h1 with h2 | ⟨j, h2⟩
        · rw [hmiss] at h2; simp at h2
        · simp [(fl.uniq hF h2).2.1]
      · intro k1 t1 l₁ l₂ hl
        exact once_snoc fl.once (by simp) hl
      · simp only [Option.some.injEq]
        rintro _ rfl k'
        rw [ResMan.find_insert, held_snoc]
        simp only [hr l hl k']
        by_cases e : k' = k
        · subst e; simp
        · simp [e, Ne.symm e]
    | finish t o =>
      simp only [step, frameStep, Option.some.injEq, Prod.mk.injEq] at hs
      obtain ⟨rfl, rfl⟩ := hs
      exact ⟨same rfl, hr⟩
    | drop t o =>
      simp only [step, frameStep, Option.some.injEq, Prod.mk.injEq] at hs
      obtain ⟨rfl, rfl⟩ := hs
      refine ⟨?_, hr⟩
      rw [flights_leave (by rintro rfl; simp [calmX] at hc)]
      exact fl.pop hF
  | remove k =>
    simp only [step, hw, Option.isSome_none, Bool.false_eq_true, if_false, Option.some.injEq, Prod.mk.injEq] at hs
    obtain ⟨rfl, rfl⟩ := hs
    refine ⟨?_, (hI.removal k).2⟩
    have e : flights (.inr (.removed (removal g k).2) : Pt K E ⊕ Res E) = flightsOf v i := by rw [hF]; rfl
    rw [e, upd_id]; exact (hI.removal k).1
  | lock => simp [calmX] at hc
  | closing todo => simp [calmX] at hc
  | method todo p => simp [calmX] at hc

theorem oinv_exec {clm : Nat → Tree K E} {m : Conf (G K E) (Op K E) (Res E) (Pt K E)} {H : List (Ev (Op K E) (Res E))}
    (h : (prog clm).mach.Exec m H) (hn : NoClose H) : OInv m.g m.view := by
  refine (prog clm).induct (fun g v H => NoClose H → OInv g v) ?_ ?_ ?_ ?_ h hn
  · intro _
    refine ⟨by constructor <;> simp [prog, new], ?_, ?_⟩
    · constructor <;> simp [prog, new, flightsOf, pend]
    · intro l hl k
      simp only [prog, new, Option.some.injEq] at hl
      subst hl; simp [find, held, prog, new]
  · intro g v H i op hI hv hH
    have hI := hI fun j hj => hH j (by simp [hj])
    have ho : op ≠ .close := fun e => hH i (by simp [e])
    refine ⟨calm_inv hI.calm ho, ?_, hI.res⟩
    rw [flightsOf_upd]
    have e : flights (.inl ((prog clm).begin op) : Pt K E ⊕ Res E) = flightsOf v i := by
      simp only [flightsOf, hv]; cases op <;> rfl
    rw [e, upd_id]; exact hI.fl
  · intro g v H i op s c g' x hI hv hs hH
    exact oinv_step (hI hH) hv hs
  · intro g v H i op r hI _ hH
    exact hI fun j hj => hH j (by simp [hj])

/-- **C114.** However create functions use the manager: between two resources that are created for the same key, the first one is removed. -/
theorem C114_create_once {clm : Nat → Tree K E} {m : Conf (G K E) (Op K E) (Res E) (Pt K E)} {H : List (Ev (Op K E) (Res E))}
    (h : (prog clm).mach.Exec m H) (hn : NoClose H) {k : K} {t t' : Nat} {l₁ l₂ l₃ : List (LogEv K)}
    (hl : m.g.log = l₁ ++ .created k t :: (l₂ ++ .created k t' :: l₃)) : ∃ r, .removed k r ∈ l₂ := by
  have := (oinv_exec h hn).fl.once k t' (l₁ ++ .created k t :: l₂) l₃ (by rw [hl]; simp)
  exact pend_removed l₂ this

/-! ## The resource returned is one created for the key -/

/-- The key of the `Get` call at the bottom of the stack, if the stack belongs to a `Get` call. -/
def Under.base (k : K) : Under K E → Option K
  | .user => some k
  | .create k' _ _ u => u.base k'
  | .close _ _ => none

/-- Proof only: part of an invariant or simulation; models no code. -/
def good (key : Nat → Option K) (log : List (LogEv K)) (op : Op K E) : Pt K E ⊕ Res E → Prop
  | .inl (.frame k p u) => (∀ k', u.base k = some k' → ∃ cr, op = .get k' cr) ∧ (∀ k' t, (k', t) ∈ u.leads → key t = some k') ∧ match p with
    | .start _ => True
    | .wait t | .lookup t _ | .creating t _ => key t = some k
    | .store t => key t = some k ∧ .created k t ∈ log
    | .finish t o | .drop t o => key t = some k ∧ ∀ r, o = .got r → .created k r ∈ log
  | .inl (.remove k) => op = .remove k
  | .inr (.get (.got r)) => ∃ k cr, op = .get k cr ∧ .created k r ∈ log
  | .inr (.removed true) => ∃ k r, op = .remove k ∧ .removed k r ∈ log
  | _ => True

omit [DecidableEq K] in
theorem good_mono {key key' : Nat → Option K} {log log' : List (LogEv K)} (hk : ∀ t k, key t = some k → key' t = some k) (hl : ∀ e ∈ log, e ∈ log')
    {op : Op K E} {x : Pt K E ⊕ Res E} (h : good key log op x) : good key' log' op x := by
  cases x with
  | inl s =>
    cases s with
    | frame k p u =>
      obtain ⟨h1, h2, h3⟩ := h
      refine ⟨h1, fun k' t ht => hk _ _ (h2 k' t ht), ?_⟩
      cases p with
      | start _ => trivial
      | wait t => exact hk _ _ h3
      | lookup t _ => exact hk _ _ h3
      | creating t _ => exact hk _ _ h3
      | store t => exact ⟨hk _ _ h3.1, hl _ h3.2⟩
      | finish t o => exact ⟨hk _ _ h3.1, fun r e => hl _ (h3.2 r e)⟩
      | drop t o => exact ⟨hk _ _ h3.1, fun r e => hl _ (h3.2 r e)⟩
    | _ => trivial
  | inr r =>
    cases r with
    | get o =>
      cases o with
      | got r => obtain ⟨k, cr, h1, h2⟩ := h; exact ⟨k, cr, h1, hl _ h2⟩
      | _ => trivial
    | removed b =>
      cases b with
      | true => obtain ⟨k, r, h1, h2⟩ := h; exact ⟨k, r, h1, hl _ h2⟩
      | false => trivial
    | _ => trivial

omit [DecidableEq K] in
theorem good_leave {key : Nat → Option K} {log : List (LogEv K)} {op : Op K E} {k : K} {u : Under K E} {o : Outcome E}
    (h1 : ∀ k', u.base k = some k' → ∃ cr, op = .get k' cr) (h2 : ∀ k' t, (k', t) ∈ u.leads → key t = some k')
    (h3 : ∀ r, o = .got r → .created k r ∈ log) : good key log op (leave u o) := by
  cases u with
  | user =>
    cases o with
    | got r => obtain ⟨cr, h⟩ := h1 k rfl; exact ⟨k, cr, h, h3 r rfl⟩
    | _ => trivial
  | create k' t f u =>
    have hk := h2 k' t (by simp [Under.leads])
    have hu : ∀ k' t, (k', t) ∈ u.leads → key t = some k' := fun k' t h => h2 k' t (by simp [Under.leads, h])
    cases o with
    | panic => exact ⟨h1, hu, hk, by simp⟩
    | got r => exact ⟨h1, hu, hk⟩
    | failed e => exact ⟨h1, hu, hk⟩
  | close todo f => cases o <;> trivial

/-- Proof only: part of an invariant or simulation; models no code. -/
structure KInv (key : Nat → Option K) (g : G K E) (v : VN K E) : Prop where
  lt : ∀ t k, key t = some k → t < g.next
  flight : ∀ k t, g.flight k = some t → key t = some k
  fin : ∀ t k r, key t = some k → g.fin t = some (.got r) → .created k r ∈ g.log
  unfin : ∀ t, g.next ≤ t → g.fin t = none
  res : ∀ l, g.res = some l → ∀ k r, find l k = some r → .created k r ∈ g.log
  good : ∀ i op x, v i = some (op, x) → good key g.log op x

theorem KInv.removal {key : Nat → Option K} {g : G K E} {v : VN K E} (h : KInv key g v) (k : K) : KInv key (removal g k).1 v := by
  unfold ResManNest.removal
  split
  · exact h
  · rename_i l hl
    split
    · have hm : ∀ e ∈ g.log, e ∈ g.log ++ [LogEv.removed k ‹_›] := fun e he => by simp [he]
      refine ⟨h.lt, h.flight, fun t k r h1 h2 => hm _ (h.fin t k r h1 h2), h.unfin, ?_, fun i op x hx => good_mono (fun _ _ h => h) hm (h.good i op x hx)⟩
      simp only [Option.some.injEq]
      rintro _ rfl k' r' hf
      rw [ResMan.find_erase] at hf
      split at hf
      · simp at hf
      · exact hm _ (h.res l hl k' r' hf)
    · exact h

theorem KInv.upd {key : Nat → Option K} {g : G K E} {v : VN K E} {i : Nat} {op : Op K E} {x : Pt K E ⊕ Res E} (h : KInv key g v)
    (hx : ResManNest.good key g.log op x) : KInv key g (upd v i (some (op, x))) := by
  refine ⟨h.lt, h.flight, h.fin, h.unfin, h.res, fun j op' y hj => ?_⟩
  by_cases hji : j = i
  · subst hji
    simp only [upd_same, Option.some.injEq, Prod.mk.injEq] at hj
    obtain ⟨rfl, rfl⟩ := hj; exact hx
  · rw [upd_ne _ _ hji] at hj; exact h.good j op' y hj

theorem kinv_step {clm : Nat → Tree K E} {key : Nat → Option K} {g : G K E} {v : VN K E} {i : Nat} {op : Op K E} {s : Pt K E} {c : Nat} {g' : G K E}
    {x : Pt K E ⊕ Res E} (hI : KInv key g v) (hv : v i = some (op, .inl s)) (hs : step clm g i op s c = some (g', x)) :
    ∃ key', KInv key' g' (upd v i (some (op, x))) := by
  have hg := hI.good i op _ hv
  cases s with
  | frame k p u =>
    obtain ⟨h1, h2, h3⟩ := hg
    cases p with
    | start cr =>
      simp only [step, frameStep] at hs
      split at hs <;> simp only [Option.some.injEq, Prod.mk.injEq] at hs <;> obtain ⟨rfl, rfl⟩ := hs
      · exact ⟨key, hI.upd ⟨h1, h2, hI.flight _ _ ‹_›⟩⟩
      · have hm : ∀ t k', key t = some k' → Conc.upd key g.next (some k) t = some k' := by
          intro t k' ht
          rw [upd_ne]; · exact ht
          rintro rfl; exact absurd (hI.lt _ _ ht) (Nat.lt_irrefl _)
        refine ⟨Conc.upd key g.next (some k), KInv.upd ⟨?_, ?_, ?_, fun t ht => hI.unfin t (Nat.le_of_succ_le ht), hI.res, ?_⟩ ⟨h1, fun k' t ht => hm _ _ (h2 k' t ht), by simp⟩⟩
        · intro t k' ht
          by_cases e : t = g.next
          · subst e; exact Nat.lt_succ_self _
          · rw [upd_ne _ _ e] at ht; exact Nat.lt_succ_of_lt (hI.lt _ _ ht)
        · intro k' t ht
          simp only at ht
          split at ht
          · simp only [Option.some.injEq] at ht; subst ht; rename_i e; subst e; simp
          · exact hm _ _ (hI.flight k' t ht)
        · intro t k' r ht hf
          by_cases e : t = g.next
          · subst e; simp [hI.unfin _ (Nat.le_refl _)] at hf
          · rw [upd_ne _ _ e] at ht; exact hI.fin t k' r ht hf
        · intro j op' y hj; exact good_mono hm (fun _ h => h) (hI.good j op' y hj)
    | wait t =>
      simp only [step, frameStep] at hs
      split at hs <;> simp only [Option.some.injEq, Prod.mk.injEq, reduceCtorEq] at hs
      obtain ⟨rfl, rfl⟩ := hs
      rename_i o ho
      exact ⟨key, hI.upd (good_leave h1 h2 fun r e => hI.fin t k r h3 (by rw [ho, e]))⟩
    | lookup t cr =>
      simp only [step, frameStep] at hs
      split at hs
      · simp at hs
      · split at hs <;> simp only [Option.some.injEq, Prod.mk.injEq] at hs <;> obtain ⟨rfl, rfl⟩ := hs
        · rename_i r hr
          refine ⟨key, hI.upd ⟨h1, h2, h3, ?_⟩⟩
          rintro r' ⟨⟩
          cases hl : g.res with
          | none => simp [hl] at hr
          | some l => simp only [hl, Option.bind_some] at hr; exact hI.res l hl k r hr
        · exact ⟨key, hI.upd ⟨h1, h2, h3⟩⟩
    | creating t p =>
      cases p with
      | ret e =>
        cases e <;> simp only [step, frameStep, Option.some.injEq, Prod.mk.injEq] at hs <;> obtain ⟨rfl, rfl⟩ := hs
        · have hm : ∀ e ∈ g.log, e ∈ g.log ++ [LogEv.created k t] := fun e he => by simp [he]
          refine ⟨key, KInv.upd ⟨hI.lt, hI.flight, fun t k r a b => hm _ (hI.fin t k r a b), hI.unfin, fun l hl k r a => hm _ (hI.res l hl k r a),
            fun j op' y hj => good_mono (fun _ _ h => h) hm (hI.good j op' y hj)⟩ ⟨h1, h2, h3, by simp⟩⟩
        · exact ⟨key, hI.upd ⟨h1, h2, h3, by simp⟩⟩
      | get k' cr f =>
        simp only [step, frameStep, Option.some.injEq, Prod.mk.injEq] at hs
        obtain ⟨rfl, rfl⟩ := hs
        refine ⟨key, hI.upd ⟨h1, ?_, trivial⟩⟩
        intro k1 t1 ht
        simp only [Under.leads, List.mem_cons, Prod.mk.injEq] at ht
        rcases ht with ⟨rfl, rfl⟩ | ht
        · exact h3
        · exact h2 k1 t1 ht
      | remove k' f =>
        simp only [step, frameStep] at hs
        split at hs
        · simp at hs
        · simp only [Option.some.injEq, Prod.mk.injEq] at hs
          obtain ⟨rfl, rfl⟩ := hs
          exact ⟨key, (hI.removal k').upd ⟨h1, h2, h3⟩⟩
    | store t =>
      simp only [step, frameStep] at hs
      split at hs
      · simp at hs
      · split at hs <;> simp only [Option.some.injEq, Prod.mk.injEq] at hs <;> obtain ⟨rfl, rfl⟩ := hs
        · exact ⟨key, KInv.upd ⟨hI.lt, hI.flight, hI.fin, hI.unfin, hI.res, hI.good⟩ ⟨h1, h2, h3.1, by simp⟩⟩
        · rename_i l hl
          have hm : ∀ e ∈ g.log, e ∈ g.log ++ [LogEv.stored k t] := fun e he => by simp [he]
          refine ⟨key, KInv.upd ⟨hI.lt, hI.flight, fun t k r a b => hm _ (hI.fin t k r a b), hI.unfin, ?_,
            fun j op' y hj => good_mono (fun _ _ h => h) hm (hI.good j op' y hj)⟩ ⟨h1, h2, h3.1, ?_⟩⟩
          · simp only [Option.some.injEq]
            rintro _ rfl k' r hf
            rw [ResMan.find_insert] at hf
            split at hf
            · rename_i e; subst e; simp only [Option.some.injEq] at hf; subst hf; exact hm _ h3.2
            · exact hm _ (hI.res l hl k' r hf)
          · rintro r ⟨⟩; exact hm _ h3.2
    | finish t o =>
      simp only [step, frameStep, Option.some.injEq, Prod.mk.injEq] at hs
      obtain ⟨rfl, rfl⟩ := hs
      refine ⟨key, KInv.upd ⟨hI.lt, hI.flight, ?_, ?_, hI.res, hI.good⟩ ⟨h1, h2, h3⟩⟩
      · intro t' k' r hk hf
        by_cases e : t' = t
        · subst e
          simp only [upd_same, Option.some.injEq] at hf
          rw [h3.1, Option.some.injEq] at hk
          subst hk; exact h3.2 r hf
        · simp only [upd_ne _ _ e] at hf; exact hI.fin t' k' r hk hf
      · intro t' ht
        have : t' ≠ t := by rintro rfl; exact absurd (hI.lt _ _ h3.1) (Nat.not_lt.2 ht)
        simp only [upd_ne _ _ this]; exact hI.unfin t' ht
    | drop t o =>
      simp only [step, frameStep, Option.some.injEq, Prod.mk.injEq] at hs
      obtain ⟨rfl, rfl⟩ := hs
      refine ⟨key, KInv.upd ⟨hI.lt, ?_, hI.fin, hI.unfin, hI.res, hI.good⟩ (good_leave h1 h2 h3.2)⟩
      intro k' t' ht
      simp only at ht
      split at ht
      · simp at ht
      · exact hI.flight k' t' ht
  | remove k =>
    simp only [step] at hs
    split at hs
    · simp at hs
    · simp only [Option.some.injEq, Prod.mk.injEq] at hs
      obtain ⟨rfl, rfl⟩ := hs
      have ho : op = .remove k := hI.good i op _ hv
      refine ⟨key, (hI.removal k).upd ?_⟩
      cases hb : (ResManNest.removal g k).2 with
      | false => trivial
      | true =>
        refine (?_ : ∃ k' r, op = .remove k' ∧ .removed k' r ∈ (ResManNest.removal g k).1.log)
        unfold ResManNest.removal at hb ⊢
        split at hb
        · simp at hb
        · rename_i l hl
          split at hb
          · rename_i r hf
            exact ⟨k, r, ho, by simp [hl, hf]⟩
          · simp at hb
  | lock =>
    simp only [step] at hs
    split at hs
    · simp at hs
    · simp only [Option.some.injEq, Prod.mk.injEq] at hs
      obtain ⟨rfl, rfl⟩ := hs
      exact ⟨key, KInv.upd ⟨hI.lt, hI.flight, hI.fin, hI.unfin, hI.res, hI.good⟩ trivial⟩
  | closing todo =>
    cases todo with
    | nil =>
      simp only [step, Option.some.injEq, Prod.mk.injEq] at hs
      obtain ⟨rfl, rfl⟩ := hs
      exact ⟨key, KInv.upd ⟨hI.lt, hI.flight, hI.fin, hI.unfin, by simp, hI.good⟩ trivial⟩
    | cons a l =>
      simp only [step] at hs
      split at hs <;> simp only [Option.some.injEq, Prod.mk.injEq, reduceCtorEq] at hs
      obtain ⟨rfl, rfl⟩ := hs
      exact ⟨key, hI.upd trivial⟩
  | method todo p =>
    cases p with
    | ret e =>
      simp only [step, Option.some.injEq, Prod.mk.injEq] at hs
      obtain ⟨rfl, rfl⟩ := hs
      exact ⟨key, hI.upd trivial⟩
    | get k cr f =>
      simp only [step, Option.some.injEq, Prod.mk.injEq] at hs
      obtain ⟨rfl, rfl⟩ := hs
      exact ⟨key, hI.upd ⟨by simp [Under.base], by simp [Under.leads], trivial⟩⟩
    | remove k f =>
      simp only [step] at hs
      split at hs
      · simp at hs
      · simp only [Option.some.injEq, Prod.mk.injEq] at hs
        obtain ⟨rfl, rfl⟩ := hs
        exact ⟨key, (hI.removal k).upd trivial⟩

theorem kinv_exec {clm : Nat → Tree K E} {m : Conf (G K E) (Op K E) (Res E) (Pt K E)} {H : List (Ev (Op K E) (Res E))}
    (h : (prog clm).mach.Exec m H) : ∃ key, KInv key m.g m.view := by
  refine (prog clm).induct (fun g v _ => ∃ key, KInv key g v) ?_ ?_ ?_ (fun _ _ _ _ _ _ h _ => h) h
  · refine ⟨fun _ => none, ?_⟩
    constructor <;> simp [prog, new, find]
  · rintro g v H i op ⟨key, hI⟩ hv
    refine ⟨key, hI.upd ?_⟩
    cases op with
    | get k cr => exact ⟨by rintro k' ⟨⟩; exact ⟨cr, rfl⟩, by simp [Under.leads], trivial⟩
    | _ => trivial
  · rintro g v H i op s c g' x ⟨key, hI⟩ hv hs
    exact kinv_step hI hv hs

/-- **C114.** Whatever user functions do: a resource that `Get` returns was created for its key. -/
theorem C114_got {clm : Nat → Tree K E} {m : Conf (G K E) (Op K E) (Res E) (Pt K E)} {H : List (Ev (Op K E) (Res E))}
    (h : (prog clm).mach.Exec m H) {i r : Nat} {k : K} {create : Tree K E} (hi : Ev.inv i (.get k create) ∈ H) (hr : Ev.ret i (.get (.got r)) ∈ H) :
    .created k r ∈ m.g.log := by
  obtain ⟨key, hI⟩ := kinv_exec h
  obtain ⟨k', cr, e, hc⟩ := hI.good i _ _ ((prog clm).ret_view h hi hr)
  cases e; exact hc

/-- **C114.** Whatever user functions do: if `Remove` returns true, a resource has been removed for its key. -/
theorem C114_removed {clm : Nat → Tree K E} {m : Conf (G K E) (Op K E) (Res E) (Pt K E)} {H : List (Ev (Op K E) (Res E))}
    (h : (prog clm).mach.Exec m H) {i : Nat} {k : K} (hi : Ev.inv i (.remove k) ∈ H) (hr : Ev.ret i (.removed true) ∈ H) :
    ∃ r, .removed k r ∈ m.g.log := by
  obtain ⟨key, hI⟩ := kinv_exec h
  obtain ⟨k', r, e, hc⟩ := hI.good i _ _ ((prog clm).ret_view h hi hr)
  cases e; exact ⟨r, hc⟩

/-! ## Runs -/

/-- A create function that calls `Get(k, …)` with a create function that just succeeds, and then succeeds iff that `Get` has. -/
def viaGet (k : K) : Tree K Unit := .get k (.ret none) fun o => match o with
  | .got _ => .ret none
  | _ => .ret (some ())

/-- The rank of a key: `false` comes before `true`. -/
def rkB : Bool → Nat := fun b => if b then 1 else 0

/-- The create function for `true` gets `false`. Call 1 gets `false` meanwhile and shares the nested create. Then `false` is removed and got again. -/
theorem demoNest : ∃ m, (prog (fun _ => .ret none) : Prog (G Bool Unit) _ _ _).mach.Exec m
    [.inv 0 (.get true (viaGet false)), .inv 1 (.get false (.ret none)), .ret 0 (.get (.got 0)), .ret 1 (.get (.got 1)), .inv 2 (.remove false),
      .ret 2 (.removed true), .inv 3 (.get false (.ret none)), .ret 3 (.get (.got 2))] ∧
    m.g.log = [.created false 1, .stored false 1, .created true 0, .stored true 0, .removed false 1, .created false 2, .stored false 2] :=
  Mach.exists_exec_state _ [.inv 0 (.get true (viaGet false)), .run 0, .run 0, .run 0, .run 0, .inv 1 (.get false (.ret none)), .run 1, .run 0, .run 0, .run 0,
    .run 0, .run 0, .run 0, .run 0, .run 0, .run 0, .run 0, .run 1, .run 1, .inv 2 (.remove false), .run 2, .run 2, .inv 3 (.get false (.ret none)), .run 3,
    .run 3, .run 3, .run 3, .run 3, .run 3, .run 3] _ _ (by exact And.intro rfl rfl)

/-- Call 1 waits for a create function that call 0 leads, which is nested in another one. -/
theorem demoWait : ∃ m, (prog (fun _ => .ret none) : Prog (G Bool Unit) _ _ _).mach.Exec m
    [.inv 0 (.get true (viaGet false)), .inv 1 (.get false (.ret none))] ∧ m.pc 1 = .at (.get false (.ret none)) (.frame false (.wait 1) .user) :=
  Mach.exists_exec_state _ [.inv 0 (.get true (viaGet false)), .run 0, .run 0, .run 0, .run 0, .inv 1 (.get false (.ret none)), .run 1] _ _
    (by exact And.intro rfl rfl)

theorem viaGet_below : (viaGet false).Below rkB true := by
  refine ⟨by decide, trivial, fun o => ?_⟩
  cases o <;> trivial

theorem demoWait_ordered : Ordered rkB ([.inv 0 (.get true (viaGet false)), .inv 1 (.get false (.ret none))] : List (Ev (Op Bool Unit) (Res Unit))) := by
  intro i k create hm
  rcases List.mem_cons.1 hm with h | hm
  · cases h; exact viaGet_below
  · rcases List.mem_cons.1 hm with h | hm
    · cases h; trivial
    · simp at hm

example := demoWait.imp fun m h => C114_no_deadlock_partial (rk := rkB) (i := 1) (op := .get false (.ret none)) h.1 (.inl fun _ => ⟨none, rfl⟩)
  demoWait_ordered
  (by simp) (by simp) (by simp)

example := demoWait.imp fun m h => C114_returns_partial (rk := rkB) h.1
  demoWait_ordered
  (by intro i; simp)

example := demoNest.elim fun m h => C114_no_panic h.1 (by intro i; simp) 0
example := demoNest.elim fun m h => C114_create_once h.1 (by intro i; simp) (k := false) (t := 1) (t' := 2) (l₁ := [])
  (l₂ := [.stored false 1, .created true 0, .stored true 0, .removed false 1]) (l₃ := [.stored false 2]) (by rw [h.2]; rfl)
example := demoNest.imp fun m h => C114_got h.1 (i := 0) (r := 0) (k := true) (create := viaGet false) (by simp) (by simp)
example := demoNest.imp fun m h => C114_removed h.1 (i := 2) (k := false) (by simp) (by simp)
example := demoWait.imp fun m h => C114_ends h.1

/-- **C114, refuted.** A create function that calls `Get` with its own key waits for itself: the call never returns, and neither does any later `Get`
of that key. -/
theorem C114_own_key_refuted : ∃ m, (prog (fun _ => .ret none) : Prog (G Bool Unit) _ _ _).mach.Exec m
    [.inv 0 (.get true (viaGet true)), .inv 1 (.get true (.ret none))] ∧
    ∀ i c, (prog (fun _ => .ret none) : Prog (G Bool Unit) _ _ _).mach.next m i c = none := by
  refine Mach.exists_exec_state _ [.inv 0 (.get true (viaGet true)), .run 0, .run 0, .run 0, .run 0, .inv 1 (.get true (.ret none)), .run 1] _ _ (by
    refine And.intro rfl ?_
    intro i c
    match i with
    | 0 | 1 => rfl
    | i + 2 => rfl)

/-- **C114, refuted.** Two create functions that get each other's key: both calls wait for ever. -/
theorem C114_cycle_refuted : ∃ m, (prog (fun _ => .ret none) : Prog (G Bool Unit) _ _ _).mach.Exec m
    [.inv 0 (.get true (viaGet false)), .inv 1 (.get false (viaGet true))] ∧
    ∀ i c, (prog (fun _ => .ret none) : Prog (G Bool Unit) _ _ _).mach.next m i c = none := by
  refine Mach.exists_exec_state _ [.inv 0 (.get true (viaGet false)), .run 0, .inv 1 (.get false (viaGet true)), .run 1, .run 0, .run 0, .run 0,
    .run 1, .run 1, .run 1] _ _ (by
    refine And.intro rfl ?_
    intro i c
    match i with
    | 0 | 1 => rfl
    | i + 2 => rfl)

/-- The same two calls, one after the other, do no harm: the dead-lock depends on the schedule. -/
example : ∃ m, (prog (fun _ => .ret none) : Prog (G Bool Unit) _ _ _).mach.Exec m
    [.inv 0 (.get true (viaGet false)), .ret 0 (.get (.got 0)), .inv 1 (.get false (viaGet true)), .ret 1 (.get (.got 1))] :=
  Mach.exists_exec _ [.inv 0 (.get true (viaGet false)), .run 0, .run 0, .run 0, .run 0, .run 0, .run 0, .run 0, .run 0,
    .run 0, .run 0, .run 0, .run 0, .run 0, .run 0, .inv 1 (.get false (viaGet true)), .run 1, .run 1, .run 1, .run 1, .run 1] _ rfl

/-- **C114, refuted.** The `Close` method of a resource calls `Remove` (here: of another key) of the manager that is being closed: `Close` never returns,
and the manager cannot be used any more. -/
theorem C114_close_remove_refuted : ∃ m, (prog (fun _ => .remove false fun _ => .ret none) : Prog (G Bool Unit) _ _ _).mach.Exec m
    [.inv 0 (.get true (.ret none)), .ret 0 (.get (.got 0)), .inv 1 .close, .inv 2 (.get false (.ret none))] ∧
    ∀ i c, (prog (fun _ => .remove false fun _ => .ret none) : Prog (G Bool Unit) _ _ _).mach.next m i c = none := by
  refine Mach.exists_exec_state _ [.inv 0 (.get true (.ret none)), .run 0, .run 0, .run 0, .run 0, .run 0, .run 0, .run 0, .inv 1 .close, .run 1, .run 1,
    .inv 2 (.get false (.ret none)), .run 2] _ _ (by
    refine And.intro rfl ?_
    intro i c
    match i with
    | 0 | 1 | 2 => rfl
    | i + 3 => rfl)

/-- **C114, refuted.** The same with a `Close` method that calls `Get`. -/
theorem C114_close_get_refuted : ∃ m, (prog (fun _ => viaGet false) : Prog (G Bool Unit) _ _ _).mach.Exec m
    [.inv 0 (.get true (.ret none)), .ret 0 (.get (.got 0)), .inv 1 .close, .inv 2 (.remove true)] ∧
    ∀ i c, (prog (fun _ => viaGet false) : Prog (G Bool Unit) _ _ _).mach.next m i c = none := by
  refine Mach.exists_exec_state _ [.inv 0 (.get true (.ret none)), .run 0, .run 0, .run 0, .run 0, .run 0, .run 0, .run 0, .inv 1 .close, .run 1, .run 1,
    .run 1, .run 1, .inv 2 (.remove true)] _ _ (by
    refine And.intro rfl ?_
    intro i c
    match i with
    | 0 | 1 | 2 => rfl
    | i + 3 => rfl)

end Verif.XSync.ResManNest

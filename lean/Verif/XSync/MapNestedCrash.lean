import Verif.Conc.NestedCrash
import Verif.XSync.MapCrashProps
import Verif.XSync.MapNestedProps
/-!
# C134 for `xsync.Map`: user functions that make calls on the map and panic

`NExec (progP B) (fnsP U) n H` are the executions in which the functions given to `Range` (map.go:476), `ComputeIfAbsent` (map.go:292, 317, 329)
and `ComputeIfPresent` (map.go:372, 384) make the calls that `U` says and may panic where `B` allows it, before, between and after these
calls. A function sees of a call that it has made what it returned, or that it panicked (`none`); it may recover that panic and go on, or panic too.
-/
namespace Verif.XSync.MapConc
open Verif.Conc Verif.Go

variable {K V : Type}

/-- What the user functions do, as `Users`; the result `none` of a call is its panic. -/
abbrev UsersP (K V : Type) := Op K V → K → Option V → Nat → List (Op K V × Option (Res K V)) → Option (Op K V)

/-- The calls of the functions, as `fns`: map.go:294, 314, 367, 476. -/
def fnsP (U : UsersP K V) : Fns (Op K V) (Option (Res K V)) (Pt K V) := fun op s tr => match inside op s with
  | some (k, v, n) => U op k v n tr
  | none => none

/-- No function makes calls forever. -/
def FiniteP (U : UsersP K V) : Prop := ∀ op k v n, WellFounded fun tr' tr => ∃ op' r, U op k v n tr = some op' ∧ tr' = tr ++ [(op', r)]

/-- The depth of nested calls is limited. -/
def DepthP (U : UsersP K V) (rank : Op K V → Nat) : Prop := ∀ op k v n tr op', U op k v n tr = some op' → rank op' < rank op

/-- Only the functions of `Range` make calls on the map. -/
def RangeOnlyP (U : UsersP K V) : Prop := ∀ op k v n tr op', U op k v n tr = some op' → ∃ f, op = .range f

/-- Only the functions of `Range` panic. -/
def RangePanics (B : Panics K V) : Prop := ∀ op k v n, B op k v n = true → ∃ f, op = .range f

theorem fnsP_some {U : UsersP K V} {op op' : Op K V} {s : Pt K V} {tr : List (Op K V × Option (Res K V))} (h : fnsP U op s tr = some op') :
    ∃ k v n, inside op s = some (k, v, n) ∧ U op k v n tr = some op' := by
  simp only [fnsP] at h
  split at h
  · rename_i k v n hi; exact ⟨k, v, n, hi, h⟩
  · simp at h

theorem fnsP_wf {U : UsersP K V} (hU : FiniteP U) (op : Op K V) (s : Pt K V) : WellFounded (Longer (fnsP U) op s) := by
  cases hi : inside op s with
  | none =>
    refine ⟨fun tr => ⟨_, ?_⟩⟩
    rintro tr' ⟨op', r, h1, _⟩
    simp [fnsP, hi] at h1
  | some x =>
    obtain ⟨k, v, n⟩ := x
    refine Subrelation.wf ?_ (hU op k v n)
    rintro tr' tr ⟨op', r, h1, h2⟩
    simp only [fnsP, hi] at h1
    exact ⟨op', r, h1, h2⟩

/-- Functions that make only the first call. -/
def firstOf (U : UsersP K V) : Users K V := fun op k v n tr => match tr with
  | [] => U op k v n []
  | _ => none

/-- Functions that make some call that the functions `U` make. -/
noncomputable def someOf (U : UsersP K V) : Users K V := fun op k v n tr => match tr with
  | [] => none
  | (op', _) :: _ => @ite _ (∃ l, U op k v n l = some op') (Classical.propDecidable _) (some op') none

theorem firstOf_finite (U : UsersP K V) : Finite (firstOf U) := by
  intro op k v n
  have one : ∀ tr : List (Op K V × Res K V), tr ≠ [] → Acc (fun tr' tr => ∃ op' r, firstOf U op k v n tr = some op' ∧ tr' = tr ++ [(op', r)]) tr := by
    intro tr htr
    refine ⟨_, ?_⟩
    rintro tr' ⟨op', r, h, _⟩
    cases tr <;> simp [firstOf] at h htr
  refine ⟨fun tr => ⟨_, ?_⟩⟩
  rintro tr' ⟨op', r, h, rfl⟩
  exact one _ (by simp)

theorem finitaryP [DecidableEq K] [DecidableEq V] {B : Panics K V} {U : UsersP K V} {rank : Op K V → Nat} (hd : DepthP U rank) (hf : FiniteP U) :
    Finitary (progP B) (fnsP U) rank fun _ => nw := by
  refine (finitary (U := firstOf U) (rank := rank) ?_ (firstOf_finite U)).crash ?_ (fnsP_wf hf) ?_ ?_
  · intro op k v n tr op' h
    cases tr with
    | nil => exact hd _ _ _ _ _ _ h
    | cons => simp [firstOf] at h
  · intro op s tr op' h
    obtain ⟨k, v, n, _, h'⟩ := fnsP_some h
    exact hd _ _ _ _ _ _ h'
  · intro op s h
    simp only [fns, firstOf] at h
    simp only [fnsP]
    split <;> simp_all
  · intro op s h
    obtain ⟨k, v, n, hi, _⟩ := panicAt_some h
    cases op <;> cases s <;> simp [inside] at hi
    all_goals first
      | (simp only [nw, lex_iff, true_and]; omega)
      | (rename_i w _ _; cases w <;> simp [nw, lex_iff])

theorem levelsP [DecidableEq K] [DecidableEq V] {B : Panics K V} {U : UsersP K V} (hU : RangeOnlyP U) (hB : RangePanics B) :
    Levels (progP B) (fnsP U) own (fun _ => 0) 1 := by
  refine (levels (U := someOf U) ?_).crash ?_ ?_
  · intro op k v n tr op' h
    cases tr with
    | nil => simp [someOf] at h
    | cons x tr =>
      obtain ⟨o, r⟩ := x
      simp only [someOf] at h
      split at h
      · rename_i hl
        obtain ⟨l, hl⟩ := hl
        exact hU _ _ _ _ _ _ hl
      · simp at h
  · intro op s tr op' h
    obtain ⟨k, v, n, hi, h'⟩ := fnsP_some h
    refine ⟨[(op', .unit)], ?_⟩
    simp only [fns, hi, someOf]
    exact if_pos ⟨_, h'⟩
  · intro m H _ i op s _ h
    obtain ⟨k, v, n, hi, h'⟩ := panicAt_some h
    obtain ⟨f, rfl⟩ := hB _ _ _ _ h'
    cases s <;> simp [inside] at hi
    simp [own, Pt.holds]

variable [DecidableEq K] [DecidableEq V] {B : Panics K V} {U : UsersP K V} {n : NConf (G K V) (Op K V) (Option (Res K V)) (Pt K V)}
  {H : List (Ev (Op K V) (Option (Res K V)))}

/-- **C134.** For the calls that returned, nested or not, the calls that panicked are calls that have not returned: their history is one of the map
whose functions make no calls and do not panic, with the guarantees of C21, C22 and C23. -/
theorem C134_map_history (h : NExec (progP B) (fnsP U) n H) : ∃ m₀, prog.mach.Exec m₀ (survived H) := C124_map_history h.flat

/-- **C134.** A call that panicked has no effect of its own; the calls that its function has made and that returned have theirs. -/
theorem C134_map_effects (h : NExec (progP B) (fnsP U) n H) :
    ∃ L st, Linearization mapSpec (survived H) L st ∧ (∀ x ∈ L, Ev.ret x.1 none ∉ H) ∧ ∀ i r, Ev.ret i (some r) ∈ H → ∃ op, (i, op, r) ∈ L := by
  obtain ⟨L, st, h1, h2⟩ := effects h.flat
  refine ⟨L, st, h1, h2, fun i r hr => ?_⟩
  exact h1.returned i r (mem_survived_ret.mpr hr)

/-- **C134.** If every function makes finitely many calls and the depth of the nesting is limited, no schedule runs on for ever unless new calls are
begun, whichever functions panic. -/
theorem C134_map_ends {rank : Op K V → Nat} (hd : DepthP U rank) (hf : FiniteP U) (h : NExec (progP B) (fnsP U) n H) : Acc (NMoves (progP B) (fnsP U)) n :=
  h.ends (finitaryP hd hf) C124_map_ends

/-- **C134.** If only functions of `Range` make calls and panic, then every call, nested or not, returns or panics: where nothing moves, none is left. -/
theorem C134_map_returns (hU : RangeOnlyP U) (hB : RangePanics B) (h : NExec (progP B) (fnsP U) n H) (hs : n.Stuck (progP B) (fnsP U)) {i : Nat} {op : Op K V}
    (hi : Ev.inv i op ∈ H) : ∃ r, Ev.ret i r ∈ H :=
  h.all_returned (h.no_deadlock (levelsP hU hB) hs) hi

/-- Two kinds of functions of `Range`, told apart by what they return for `0`: the function of the first kind begins a `Range` with a function of the
second kind, recovers the panic of it and loads the key. -/
def recovers : UsersP Nat Nat := fun op k _ _ tr => match op, tr with
  | .range f, [] => if f 0 0 0 then some (.range fun _ _ _ => false) else none
  | .range f, [(_, none)] => if f 0 0 0 then some (.load k) else none
  | _, _ => none

/-- Functions of the second kind may panic. -/
def secondPanics : Panics Nat Nat := fun op _ _ _ => match op with
  | .range f => !f 0 0 0
  | _ => false

/-- For the concrete cases beside the theorems. -/
def depthKind : Op Nat Nat → Nat
  | .range f => if f 0 0 0 then 2 else 1
  | _ => 0

theorem recovers_some {op op' : Op Nat Nat} {k n : Nat} {v : Option Nat} {tr : List (Op Nat Nat × Option (Res Nat Nat))} (h : recovers op k v n tr = some op') :
    (∃ f, op = .range f) ∧ depthKind op' < depthKind op ∧ tr.length < 2 := by
  cases op <;> simp [recovers] at h
  rename_i f
  match tr, h with
  | [], h =>
    simp only [Option.ite_none_right_eq_some, Option.some.injEq] at h
    obtain ⟨h1, rfl⟩ := h
    simp [depthKind, h1]
  | [(_, none)], h =>
    simp only [Option.ite_none_right_eq_some, Option.some.injEq] at h
    obtain ⟨h1, rfl⟩ := h
    simp [depthKind, h1]
  | [(_, some _)], h => simp at h
  | _ :: _ :: _, h => simp at h

theorem recovers_depth : DepthP recovers depthKind := fun _ _ _ _ _ _ h => (recovers_some h).2.1

theorem recovers_range : RangeOnlyP recovers := fun _ _ _ _ _ _ h => (recovers_some h).1

theorem recovers_finite : FiniteP recovers := by
  intro op k v n
  refine Subrelation.wf (r := InvImage (· < ·) fun tr => 2 - tr.length) ?_ (InvImage.wf _ Nat.lt_wfRel.wf)
  rintro tr' tr ⟨op', r, h, rfl⟩
  have := (recovers_some h).2.2
  simp only [InvImage, List.length_append, List.length_singleton]
  omega

theorem secondPanics_range : RangePanics secondPanics := by
  intro op k v n h
  cases op <;> simp [secondPanics] at h
  exact ⟨_, rfl⟩

/-- The function of a `Range` begins a `Range` whose function panics, recovers, and loads the key; another goroutine has begun a call. -/
theorem demoRecovers : ∃ n : NConf (G Nat Nat) _ _ _, NExec (progP secondPanics) (fnsP recovers) n [.inv 1 (.store 0 5), .ret 1 (some .unit),
    .inv 2 (.range fun _ _ _ => true), .inv 3 (.range fun _ _ _ => false), .ret 3 none, .inv 5 (.delete 0), .inv 4 (.load 0),
    .ret 4 (some (.value (some 5))), .ret 2 (some (.visited [(0, 5)] true))] ∧ n.stack 8 = [(5, [])] :=
  exists_nexec ([.start 7 1 (.store 0 5)] ++ nruns 9 7 ++ [.start 7 2 (.range fun _ _ _ => true)] ++ nruns 6 7 ++ [.nest 7 3] ++ nruns 4 7 ++
    [.start 8 5 (.delete 0), .nest 7 4] ++ nruns 6 7) _ _ (by exact And.intro rfl rfl)

example := demoRecovers.imp fun _ h => C134_map_history h.1

example := demoRecovers.imp fun _ h => C134_map_effects h.1

example := demoRecovers.imp fun _ h => C134_map_ends recovers_depth recovers_finite h.1

/-- From there an execution leads to a state in which nothing moves, and `Delete` has returned. -/
example : ∃ n H r, NExec (progP secondPanics) (fnsP recovers) n H ∧ n.Stuck (progP secondPanics) (fnsP recovers) ∧ Ev.ret 3 none ∈ H ∧ Ev.ret 5 r ∈ H := by
  obtain ⟨n, h, _⟩ := demoRecovers
  obtain ⟨n', H', h1, h2⟩ := exists_stuck (C134_map_ends recovers_depth recovers_finite h) _
  have h3 := h1.exec h
  obtain ⟨r, hr⟩ := C134_map_returns recovers_range secondPanics_range h3 h2 (i := 5) (op := .delete 0) (by simp)
  exact ⟨n', _, r, h3, h2, by simp, hr⟩

end Verif.XSync.MapConc

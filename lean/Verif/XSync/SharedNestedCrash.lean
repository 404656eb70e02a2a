import Verif.Conc.NestedCrash
import Verif.XSync.SharedCrashProps
import Verif.XSync.SharedNestedProps
/-!
# C134 for `xsync.SharedMap`: user functions that make calls on it and panic

As `MapNestedCrash.lean`, for the calls of `xsync/shared_map.go:60-146`.
-/
namespace Verif.XSync.SharedConc
open Verif.Conc Verif.Go
open Verif.XSync.MapConc (G Pt inside)

variable {V : Type}

/-- What the user functions do, as `Users`; the result `none` of a call is its panic. -/
abbrev UsersP (V : Type) := SOp V → Bytes → Option V → Nat → List (SOp V × Option (SRes V)) → Option (SOp V)

/-- The functions run inside the calls of the shards: shared_map.go:71, 80, 138. -/
def fnsP (U : UsersP V) : Fns (SOp V) (Option (SRes V)) (CPt (BOp V) (BRes V) (Pt Bytes V))
  | op, .inner tr o s, l => match inside o.2 s with
    | some (k, v, n) => U op k v ((visits tr).length + n) l
    | none => none
  | _, .between _, _ => none

/-- No function makes calls forever. -/
def FiniteP (U : UsersP V) : Prop := ∀ op k v n, WellFounded fun tr' tr => ∃ op' r, U op k v n tr = some op' ∧ tr' = tr ++ [(op', r)]

/-- The depth of nested calls is limited. -/
def DepthP (U : UsersP V) (rank : SOp V → Nat) : Prop := ∀ op k v n tr op', U op k v n tr = some op' → rank op' < rank op

/-- The functions of `ComputeIfAbsent` and `ComputeIfPresent` use only shards that come later than the shard of the key, in some order of the
shards. The functions of `Range` may do anything. -/
def OrderedP (m : Shape) (pos : Nat → Nat) (U : UsersP V) : Prop := ∀ op k₀ k v n tr op' x, computes op = some k₀ → U op k v n tr = some op' →
  Touches m op' x → pos (m.index k₀) < pos x

/-- Only the functions of `Range` panic. -/
def RangePanics (B : Panics V) : Prop := ∀ op k v n, B op k v n = true → ∃ f, op = .range f

theorem fnsP_some {U : UsersP V} {op op' : SOp V} {s : CPt (BOp V) (BRes V) (Pt Bytes V)} {l : List (SOp V × Option (SRes V))} (h : fnsP U op s l = some op') :
    ∃ tr o p k v n, s = .inner tr o p ∧ inside o.2 p = some (k, v, n) ∧ U op k v ((visits tr).length + n) l = some op' := by
  cases s with
  | between tr => simp [fnsP] at h
  | inner tr o p =>
    simp only [fnsP] at h
    split at h
    · rename_i k v n hi; exact ⟨tr, o, p, k, v, n, rfl, hi, h⟩
    · simp at h

theorem fnsP_wf {U : UsersP V} (hU : FiniteP U) (op : SOp V) (s : CPt (BOp V) (BRes V) (Pt Bytes V)) : WellFounded (Longer (fnsP U) op s) := by
  have none' : (∀ l, fnsP U op s l = none) → WellFounded (Longer (fnsP U) op s) := by
    intro h
    refine ⟨fun tr => ⟨_, ?_⟩⟩
    rintro tr' ⟨op', r, h1, _⟩
    rw [h] at h1
    simp at h1
  cases s with
  | between tr => exact none' fun _ => rfl
  | inner tr o p =>
    cases hi : inside o.2 p with
    | none => exact none' fun _ => by simp [fnsP, hi]
    | some x =>
      obtain ⟨k, v, n⟩ := x
      refine Subrelation.wf ?_ (hU op k v ((visits tr).length + n))
      rintro tr' tr ⟨op', r, h1, h2⟩
      simp only [fnsP, hi] at h1
      exact ⟨op', r, h1, h2⟩

/-- Functions that make only the first call. -/
def firstOf (U : UsersP V) : Users V := fun op k v n tr => match tr with
  | [] => U op k v n []
  | _ => none

/-- Functions that make some call that the functions `U` make. -/
noncomputable def someOf (U : UsersP V) : Users V := fun op k v n tr => match tr with
  | [] => none
  | (op', _) :: _ => @ite _ (∃ l, U op k v n l = some op') (Classical.propDecidable _) (some op') none

theorem firstOf_finite (U : UsersP V) : Finite (firstOf U) := by
  intro op k v n
  have one : ∀ tr : List (SOp V × SRes V), tr ≠ [] → Acc (fun tr' tr => ∃ op' r, firstOf U op k v n tr = some op' ∧ tr' = tr ++ [(op', r)]) tr := by
    intro tr htr
    refine ⟨_, ?_⟩
    rintro tr' ⟨op', r, h, _⟩
    cases tr <;> simp [firstOf] at h htr
  refine ⟨fun tr => ⟨_, ?_⟩⟩
  rintro tr' ⟨op', r, h, rfl⟩
  exact one _ (by simp)

variable [DecidableEq V] {m : Shape} {B : Panics V} {U : UsersP V}

theorem finitaryP {rank : SOp V → Nat} (hd : DepthP U rank) (hf : FiniteP U) : Finitary (progP m B) (fnsP U) rank (snw m) := by
  refine (finitary (U := firstOf U) (rank := rank) ?_ (firstOf_finite U)).crash ?_ (fnsP_wf hf) ?_ ?_
  · intro op k v n tr op' h
    cases tr with
    | nil => exact hd _ _ _ _ _ _ h
    | cons => simp [firstOf] at h
  · intro op s tr op' h
    obtain ⟨_, _, _, k, v, n, _, _, h'⟩ := fnsP_some h
    exact hd _ _ _ _ _ _ h'
  · intro op s h
    cases s with
    | between tr => rfl
    | inner tr o p =>
      simp only [fns, firstOf] at h
      simp only [fnsP]
      split <;> simp_all
  · intro op s h
    obtain ⟨tr, o, p, k, v, n, rfl, hi, _⟩ := panicAt_some h
    obtain ⟨x, o⟩ := o
    cases o <;> cases p <;> simp [inside] at hi
    all_goals first
      | (simp only [snw, MapConc.nw, MapConc.lex_iff]; omega)
      | (rename_i w _ _; cases w <;> simp only [snw, MapConc.nw, MapConc.lex_iff] <;> omega)

theorem levelsP {pos : Nat → Nat} (hU : OrderedP m pos U) (hB : RangePanics B) : Levels (progP m B) (fnsP U) (own pos) (lvl m pos) (top m pos) := by
  refine (levels (U := someOf U) ?_).crash ?_ ?_
  · intro op k₀ k v n tr op' x h1 h2 h3
    cases tr with
    | nil => simp [someOf] at h2
    | cons y tr =>
      obtain ⟨o, r⟩ := y
      simp only [someOf] at h2
      split at h2
      · rename_i hl
        obtain ⟨l, hl⟩ := hl
        simp only [Option.some.injEq] at h2
        subst h2
        exact hU _ _ _ _ _ _ _ _ h1 hl h3
      · simp at h2
  · intro op s tr op' h
    obtain ⟨tr, o, p, k, v, n, rfl, hi, h'⟩ := fnsP_some h
    refine ⟨[(op', .unit)], ?_⟩
    simp only [fns, hi, someOf]
    exact if_pos ⟨_, h'⟩
  · intro mm H h i op s hp hb
    obtain ⟨tr, o, p, k, v, n, rfl, hi, h'⟩ := panicAt_some hb
    obtain ⟨f, rfl⟩ := hB _ _ _ _ h'
    rcases function_of h hp (by simp [hi]) with ⟨_, hh⟩ | ⟨k', hk, _⟩
    · simp [own, hh]
    · simp [computes] at hk

variable {opts : List Int} {n : NConf (Nat → G Bytes V) (SOp V) (Option (SRes V)) (CPt (BOp V) (BRes V) (Pt Bytes V))} {H : List (Ev (SOp V) (Option (SRes V)))}

/-- **C134.** For the calls that returned, nested or not, the calls that panicked are calls that have not returned: their history is one of the map
whose functions make no calls and do not panic. -/
theorem C134_shared_history (h : NExec (progP m B) (fnsP U) n H) : ∃ m₀, (prog m).mach.Exec m₀ (survived H) := C124_shared_history h.flat

/-- **C134.** A call that panicked has no effect of its own: there is an order of the effects that explains the history of the other calls, nested or
not, as in C88, in which the calls that panicked change nothing. -/
theorem C134_shared_effects (h1 : 1 ≤ Shared.requested opts) (h2 : Shared.requested opts ≤ 2^31) (hm : newShape opts = some m)
    (h : NExec (progP m B) (fnsP U) n H) :
    ∃ L st, Explains (survived H) L st ∧ RangeOk (survived H) L st ∧ PresentOk (survived H) L st ∧
      ∀ n i op r, L[n]? = some (i, op, r) → Ev.ret i none ∈ H → (∃ f, op = .range f) ∧ st (n + 1) = st n := C124_shared_effects h1 h2 hm h.flat

/-- **C134.** If every function makes finitely many calls and the depth of the nesting is limited, no schedule runs on for ever unless new calls are
begun, whichever functions panic. -/
theorem C134_shared_ends {rank : SOp V → Nat} (hd : DepthP U rank) (hf : FiniteP U) (h : NExec (progP m B) (fnsP U) n H) :
    Acc (NMoves (progP m B) (fnsP U)) n := h.ends (finitaryP hd hf) C124_shared_ends

/-- **C134.** If only functions of `Range` panic, and those of `ComputeIfAbsent` and `ComputeIfPresent` use only shards that come later than the shard
of their key, then every call, nested or not, returns or panics: where nothing moves, none is left. -/
theorem C134_shared_returns {pos : Nat → Nat} (hU : OrderedP m pos U) (hB : RangePanics B) (h : NExec (progP m B) (fnsP U) n H)
    (hs : n.Stuck (progP m B) (fnsP U)) {i : Nat} {op : SOp V} (hi : Ev.inv i op ∈ H) : ∃ r, Ev.ret i r ∈ H :=
  h.all_returned (h.no_deadlock (levelsP hU hB) hs) hi

/-- `Range` stores under the key 99, which is in shard 0; the functions of `ComputeIfAbsent` for keys of shard 0 load key 98, which is in shard 1. -/
def upwardsP : UsersP Nat := fun op _ _ _ tr => match op, tr with
  | .computeIfAbsent k₀ _, [] => if two.index k₀ = 0 then some (.load [98]) else none
  | .range _, [] => some (.computeIfAbsent [99] fun _ _ => 7)
  | _, _ => none

/-- The functions of `Range` may panic. -/
def rangesPanic : Panics Nat := fun op _ _ _ => match op with
  | .range _ => true
  | _ => false

theorem upwardsP_finite : FiniteP upwardsP := by
  intro op k v n
  refine Subrelation.wf (r := InvImage (· < ·) fun tr => 1 - tr.length) ?_ (InvImage.wf _ Nat.lt_wfRel.wf)
  rintro tr' tr ⟨op', r, h1, rfl⟩
  cases tr with
  | nil => simp [InvImage]
  | cons => cases op <;> simp [upwardsP] at h1

theorem upwardsP_depth : DepthP upwardsP depthTwo := by
  intro op k v n tr op' h
  cases tr <;> cases op <;> simp [upwardsP] at h
  · rw [← h.2]; simp [depthTwo]
  · rw [← h]; simp [depthTwo]

theorem upwardsP_ordered : OrderedP two id upwardsP := by
  intro op k₀ k v n tr op' x h1 h2 h3
  cases tr <;> cases op <;> simp [upwardsP, computes] at h1 h2
  subst h1
  rw [← h2.2] at h3
  simp only [id, h2.1]
  have h4 : two.index [98] = x := h3
  rw [← h4]
  decide

theorem rangesPanic_range : RangePanics rangesPanic := by
  intro op k v n h
  cases op <;> simp [rangesPanic] at h
  exact ⟨_, rfl⟩

/-- The function of a `Range` makes a `ComputeIfAbsent` whose function makes a `Load`, and panics then; another goroutine has begun a `Delete`. -/
theorem demoUpwards : ∃ n : NConf (Nat → G Bytes Nat) _ _ _, NExec (progP two rangesPanic) (fnsP upwardsP) n [.inv 1 (.store [97] 5), .ret 1 (some .unit),
    .inv 2 (.range fun _ _ _ => true), .inv 3 (.computeIfAbsent [99] fun _ _ => 7), .inv 4 (.load [98]), .ret 4 (some (.value none)), .inv 5 (.delete [99]),
    .ret 3 (some (.loaded (some 7) false)), .ret 2 none] ∧ n.stack 8 = [(5, [])] :=
  exists_nexec ([.start 7 1 (.store [97] 5)] ++ nruns 11 7 ++ [.start 7 2 (.range fun _ _ _ => true)] ++ nruns 7 7 ++ [.nest 7 3] ++ nruns 9 7 ++
    [.nest 7 4] ++ nruns 6 7 ++ [.start 8 5 (.delete [99])] ++ nruns 5 7) _ _ (by exact And.intro rfl rfl)

example := demoUpwards.imp fun _ h => C134_shared_history h.1

example := demoUpwards.imp fun _ h => C134_shared_effects (opts := [2]) (by decide) (by decide) rfl h.1

example := demoUpwards.imp fun _ h => C134_shared_ends upwardsP_depth upwardsP_finite h.1

/-- From there an execution leads to a state in which nothing moves, and `Delete` has returned. -/
example : ∃ n H r, NExec (progP two rangesPanic) (fnsP upwardsP) n H ∧ n.Stuck (progP two rangesPanic) (fnsP upwardsP) ∧ Ev.ret 2 none ∈ H ∧ Ev.ret 5 r ∈ H := by
  obtain ⟨n, h, _⟩ := demoUpwards
  obtain ⟨n', H', h1, h2⟩ := exists_stuck (C134_shared_ends upwardsP_depth upwardsP_finite h) _
  have h3 := h1.exec h
  obtain ⟨r, hr⟩ := C134_shared_returns upwardsP_ordered rangesPanic_range h3 h2 (i := 5) (op := .delete [99]) (by simp)
  exact ⟨n', _, r, h3, h2, by simp, hr⟩

end Verif.XSync.SharedConc

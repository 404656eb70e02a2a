import Verif.Conc.NestedCrash
import Verif.XSync.MapNestedCrash
import Verif.XSync.MapWordsNested
/-!
# C140: user functions of `xsync.Map` that make calls on the map, `Clear` included, and panic

`NExec (progWP B) (fnsWP U) n H` are the executions of `MapWordsNested.lean` in which the functions may panic as well, where `B` allows it: before,
between and after the calls that they make. A call has the result `none` if its function panicked, and `some .panic` if it panicked because it
overlapped a `Clear` (C24). The function that has made the call may recover the panic and go on, or panic too.
-/
namespace Verif.XSync.MapWords
open Verif.Conc Verif.Go Verif.XSync.MapConc

variable {K V : Type}

/-- The points at which a function of the user runs, as `MapConc.panicAt`: map.go:294, 314, 367, 476. -/
def panicAtW (B : Panics K V) : Op K V ⊕ ClearOp → PtW K V → Bool
  | .inl op, .pt s => panicAt B op s
  | _, _ => false

/-- What the user functions do, as `UsersW`; the result `none` of a call is the panic of its function. -/
abbrev UsersWP (K V : Type) := Op K V → K → Option V → Nat → List ((Op K V ⊕ ClearOp) × Option (Res K V)) → Option (Op K V ⊕ ClearOp)

/-- The calls of the functions, as `fnsW`: map.go:294, 314, 367, 476. -/
def fnsWP (U : UsersWP K V) : Fns (Op K V ⊕ ClearOp) (Option (Res K V)) (PtW K V) := fun o s tr => match o, s with
  | .inl op, .pt s => match inside op s with
    | some (k, v, n) => U op k v n tr
    | none => none
  | _, _ => none

/-- No function makes calls forever. -/
def FiniteWP (U : UsersWP K V) : Prop := ∀ op k v n, WellFounded fun tr' tr => ∃ o r, U op k v n tr = some o ∧ tr' = tr ++ [(o, r)]

/-- The depth of nested calls is limited. -/
def DepthWP (U : UsersWP K V) (rank : Op K V ⊕ ClearOp → Nat) : Prop := ∀ op k v n tr o, U op k v n tr = some o → rank o < rank (.inl op)

/-- Only the functions of `Range` make calls on the map. -/
def RangeOnlyWP (U : UsersWP K V) : Prop := ∀ op k v n tr o, U op k v n tr = some o → ∃ f, op = .range f

theorem panicAtW_some {B : Panics K V} {o : Op K V ⊕ ClearOp} {s : PtW K V} (h : panicAtW B o s = true) :
    ∃ op t k v n, o = .inl op ∧ s = .pt t ∧ inside op t = some (k, v, n) ∧ B op k v n = true := by
  cases o with
  | inr _ => simp [panicAtW] at h
  | inl op =>
    cases s with
    | pt t => obtain ⟨k, v, n, h1, h2⟩ := panicAt_some h; exact ⟨op, t, k, v, n, rfl, rfl, h1, h2⟩
    | _ => simp [panicAtW] at h

theorem fnsWP_some {U : UsersWP K V} {o o' : Op K V ⊕ ClearOp} {s : PtW K V} {tr : List ((Op K V ⊕ ClearOp) × Option (Res K V))} (h : fnsWP U o s tr = some o') :
    ∃ op t k v n, o = .inl op ∧ s = .pt t ∧ inside op t = some (k, v, n) ∧ U op k v n tr = some o' := by
  cases o with
  | inr _ => simp [fnsWP] at h
  | inl op =>
    cases s with
    | pt t =>
      simp only [fnsWP] at h
      split at h
      · rename_i k v n hi; exact ⟨op, t, k, v, n, rfl, rfl, hi, h⟩
      · simp at h
    | _ => simp [fnsWP] at h

theorem fnsWP_wf {U : UsersWP K V} (hU : FiniteWP U) (o : Op K V ⊕ ClearOp) (s : PtW K V) : WellFounded (Longer (fnsWP U) o s) := by
  by_cases hi : ∃ op t k v n, o = .inl op ∧ s = .pt t ∧ inside op t = some (k, v, n)
  · obtain ⟨op, t, k, v, n, rfl, rfl, hi⟩ := hi
    refine Subrelation.wf ?_ (hU op k v n)
    rintro tr' tr ⟨o', r, h1, h2⟩
    simp only [fnsWP, hi] at h1
    exact ⟨o', r, h1, h2⟩
  · refine ⟨fun tr => ⟨_, ?_⟩⟩
    rintro tr' ⟨o', r, h1, _⟩
    obtain ⟨op, t, k, v, n, h1, h2, h3, _⟩ := fnsWP_some h1
    exact absurd ⟨op, t, k, v, n, h1, h2, h3⟩ hi

/-- Proof only: functions that make only the first call. -/
def firstOfW (U : UsersWP K V) : UsersW K V := fun op k v n tr => match tr with
  | [] => U op k v n []
  | _ => none

/-- Proof only: functions that make some call that the functions `U` make. -/
noncomputable def someOfW (U : UsersWP K V) : UsersW K V := fun op k v n tr => match tr with
  | [] => none
  | (o, _) :: _ => @ite _ (∃ l, U op k v n l = some o) (Classical.propDecidable _) (some o) none

theorem firstOfW_finite (U : UsersWP K V) : FiniteW (firstOfW U) := by
  intro op k v n
  refine ⟨fun tr => ⟨_, ?_⟩⟩
  rintro tr' ⟨o, r, h, rfl⟩
  refine ⟨_, ?_⟩
  rintro tr'' ⟨o', r', h', _⟩
  cases tr <;> simp [firstOfW] at h'

variable [DecidableEq K] [DecidableEq V]

/-- `xsync.Map` with `Clear` and with functions that may panic: map.go:100-515. -/
def progWP (B : Panics K V) : Prog (GW K V) (Op K V ⊕ ClearOp) (Option (Res K V)) (PtW K V) := progW.crash (panicAtW B)

theorem finitaryWP {B : Panics K V} {U : UsersWP K V} {rank : Op K V ⊕ ClearOp → Nat} (hd : DepthWP U rank) (hf : FiniteWP U) :
    Finitary (progWP B) (fnsWP U) rank nwW := by
  refine (finitaryW (U := firstOfW U) (rank := rank) ?_ (firstOfW_finite U)).crash ?_ (fnsWP_wf hf) ?_ ?_
  · intro op k v n tr o h
    cases tr with
    | nil => exact hd _ _ _ _ _ _ h
    | cons => simp [firstOfW] at h
  · intro o s tr o' h
    obtain ⟨op, t, k, v, n, rfl, rfl, _, h'⟩ := fnsWP_some h
    exact hd _ _ _ _ _ _ h'
  · intro o s h
    cases o with
    | inr _ => rfl
    | inl op =>
      cases s with
      | pt t =>
        simp only [fnsW, firstOfW] at h
        simp only [fnsWP]
        split <;> simp_all
      | _ => rfl
  · intro o s h
    obtain ⟨op, t, k, v, n, rfl, rfl, hi, _⟩ := panicAtW_some h
    cases op <;> cases t <;> simp [inside] at hi
    all_goals first
      | (simp only [nwW, nw, lex_iff, true_and]; omega)
      | (rename_i w _ _; cases w <;> simp [nwW, nw, lex_iff])

theorem levelsWP {B : Panics K V} {U : UsersWP K V} (hU : RangeOnlyWP U) (hB : RangePanics B) : Levels (progWP B) (fnsWP U) ownW (fun _ => 0) 1 := by
  refine (levelsW (U := someOfW U) ?_).crash ?_ ?_
  · intro op k v n tr o h
    cases tr with
    | nil => simp [someOfW] at h
    | cons x tr =>
      obtain ⟨o', r⟩ := x
      simp only [someOfW] at h
      split at h
      · rename_i hl
        obtain ⟨l, hl⟩ := hl
        exact hU _ _ _ _ _ _ hl
      · simp at h
  · intro o s tr o' h
    obtain ⟨op, t, k, v, n, rfl, rfl, hi, h'⟩ := fnsWP_some h
    refine ⟨[(o', .unit)], ?_⟩
    simp only [fnsW, hi, someOfW]
    exact if_pos ⟨_, h'⟩
  · intro m H _ i o s _ h
    obtain ⟨op, t, k, v, n, rfl, rfl, hi, h'⟩ := panicAtW_some h
    obtain ⟨f, rfl⟩ := hB _ _ _ _ h'
    cases t <;> simp [inside] at hi
    simp [ownW, Pt.holds]

section
variable {B : Panics K V} {m : Conf (GW K V) (Op K V ⊕ ClearOp) (Option (Res K V)) (PtW K V)} {H : List (Ev (Op K V ⊕ ClearOp) (Option (Res K V)))}

/-- The loop that waits for another first store is not reached. -/
theorem next_crashS (h : (progWP B).mach.Exec m H) (i c : Nat) : (progWP B).mach.next m i c = (progS.crash (panicAtW B)).mach.next m i c := by
  obtain ⟨m₀, h₀, hg, ha⟩ := crash_sim h
  simp only [Prog.mach]
  cases hp : m.pc i with
  | «at» o s =>
    have key : ∀ c, progS.step m.g i o s c = progW.step m.g i o s c := fun c => by
      have := step_progS h₀ (crash_at ha hp) c
      rwa [hg] at this
    have : (progWP B).step m.g i o s c = (progS.crash (panicAtW B)).step m.g i o s c := by
      simp only [progWP, Prog.crash, key]
    dsimp only
    rw [this]
  | _ => rfl

theorem endsWP (h : (progWP B).mach.Exec m H) : Acc (progWP B).Moves m := by
  obtain ⟨n, hn⟩ := (progWP B).finite_calls h
  have ha : Acc (progS.crash (panicAtW B)).Moves m := (sinksW.crash (panicAtW B)).acc hn
  clear hn
  induction ha generalizing H with
  | intro m _ ih =>
    refine ⟨_, fun m' ⟨l, i, c, hm⟩ => ?_⟩
    have hstep := hm
    rw [next_crashS h] at hm
    have hx : ∃ H', (progWP B).mach.Exec m' H' := by
      cases l with
      | none => exact ⟨H, .tau h (.run _ _ _ _ _ hstep)⟩
      | some e => exact ⟨_, .ev h (.run _ _ _ _ _ hstep)⟩
    obtain ⟨H', hx⟩ := hx
    exact ih m' ⟨l, i, c, hm⟩ hx

end

/-- Calls whose function has not panicked keep their order in the history of the others. -/
theorem before_survived {Op Res : Type} {H : List (Ev Op (Option Res))} {a b : Nat} (h : Before H a b) (ha : Ev.ret a none ∉ H) : Before (survived H) a b := by
  obtain ⟨A, C, r, op, rfl, hr, hi⟩ := h
  cases r with
  | none => exact absurd (List.mem_append_left _ hr) ha
  | some r =>
    exact ⟨survived A, survived C, r, op, by simp [survived, List.filterMap_append], mem_survived_ret.mpr hr, mem_survived_inv.mpr hi⟩

/-! ## C140 -/

section
variable {B : Panics K V} {U : UsersWP K V} {n : NConf (GW K V) (Op K V ⊕ ClearOp) (Option (Res K V)) (PtW K V)}
  {H : List (Ev (Op K V ⊕ ClearOp) (Option (Res K V)))}

/-- **C140.** For the others a call whose function panicked is a call that has not returned: apart from it, and from the calls that panicked because
they overlapped a `Clear`, the calls take effect one after the other, each of them while it runs, as on an ordinary map (without
`ComputeIfPresent`, see C22). -/
theorem C140_linearizable_partial (h : NExec (progWP B) (fnsWP U) n H) (hno : ∀ i k f, Ev.inv i (.inl (.computeIfPresent k f)) ∉ H) :
    Linearizable strictSpecC (settled (survived H)) := by
  obtain ⟨m₀, h₀, _⟩ := crash_sim h.flat
  exact C118_linearizable h₀ fun i k f hi => hno i k f (mem_survived_inv.mp hi)

/-- **C140.** With `ComputeIfPresent`: its function is applied to a value that the key had during the call, before the replacement. A `Range` that returns visits pairs that were there during the call, no key twice, and all keys that were present throughout unless its
function stopped it, whatever its function and the others do, and whichever functions panic. -/
theorem C140_observed (h : NExec (progWP B) (fnsWP U) n H) : ∃ L st, Linearization mapSpecC (settled (survived H)) L st ∧
    (∀ i k f w v, Ev.inv i (.inl (.computeIfPresent k f)) ∈ H → Ev.ret i (some (.present (some (w, v)))) ∈ H →
      ∃ n n' o r, L[n']? = some (i, o, r) ∧ During (settled (survived H)) L i n ∧ n ≤ n' ∧ st n k = some w) ∧
    ∀ i f l all, Ev.inv i (.inl (.range f)) ∈ H → Ev.ret i (some (.visited l all)) ∈ H →
      (l.map (·.1)).Nodup ∧ (∀ k v, (k, v) ∈ l → ∃ n, During (settled (survived H)) L i n ∧ st n k = some v) ∧
      (all = true → ∀ k, (∀ n, During (settled (survived H)) L i n → st n k ≠ none) → ∃ v, (k, v) ∈ l) := by
  obtain ⟨m₀, h₀, _⟩ := crash_sim h.flat
  obtain ⟨L, st, h1, h2, h3⟩ := C118_observed h₀
  exact ⟨L, st, h1, fun i k f w v hi hr => h2 i k f w v (mem_survived_inv.mpr hi) (mem_survived_ret.mpr hr), fun i f l all hi hr => h3 i f l all (mem_survived_inv.mpr hi) (mem_survived_ret.mpr hr)⟩

/-- **C140.** A call that panics although no function of it has panicked overlaps a `Clear`. -/
theorem C140_panics (h : NExec (progWP B) (fnsWP U) n H) {i : Nat} (hi : Ev.ret i (some .panic) ∈ H) :
    (∃ op, Ev.inv i (.inl op) ∈ H) ∧ ∃ j, Ev.inv j (.inr .clear) ∈ H ∧ ¬ Before H j i ∧ ¬ Before H i j := by
  obtain ⟨m₀, h₀, _, ha⟩ := crash_sim h.flat
  obtain ⟨⟨op, h1⟩, j, h2, h3, h4⟩ := C118_panics h₀ (mem_survived_ret.mpr hi)
  have hh := (progWP B).hist h.flat
  refine ⟨⟨op, mem_survived_inv.mp h1⟩, j, mem_survived_inv.mp h2, fun hb => h3 (before_survived hb fun hn => ?_),
    fun hb => h4 (before_survived hb fun hn => ?_)⟩
  · obtain ⟨o, hv⟩ := hh.2 j none hn
    obtain ⟨x, hx⟩ := (hh.1 j (.inr .clear)).1 (mem_survived_inv.mp h2)
    have := ha j
    rw [hv] at hx this
    simp only [Option.some.injEq, Prod.mk.injEq] at hx
    obtain ⟨rfl, _⟩ := hx
    obtain ⟨s, hs, _⟩ := this
    simp [panicAtW] at hs
  · obtain ⟨o, hv⟩ := hh.2 i none hn
    obtain ⟨o', hv'⟩ := hh.2 i _ hi
    rw [hv] at hv'
    simp at hv'

/-- **C140.** If every function makes finitely many calls and the depth of the nesting is limited, then no schedule runs on forever, unless
goroutines begin new calls, whichever functions panic. -/
theorem C140_ends {rank : Op K V ⊕ ClearOp → Nat} (hd : DepthWP U rank) (hf : FiniteWP U) (h : NExec (progWP B) (fnsWP U) n H) :
    Acc (NMoves (progWP B) (fnsWP U)) n :=
  h.ends (finitaryWP hd hf) endsWP

/-- **C140, the part that holds.** If only functions of `Range` make calls and panic, every call returns or panics: where nothing moves, none is left.
Missing: the same with functions of `ComputeIfAbsent` and `ComputeIfPresent`, which is false (`C124_computeIfAbsent_refuted`, `C139_clear_refuted`). -/
theorem C140_returns_partial (hU : RangeOnlyWP U) (hB : RangePanics B) (h : NExec (progWP B) (fnsWP U) n H) (hs : n.Stuck (progWP B) (fnsWP U)) {i : Nat}
    {o : Op K V ⊕ ClearOp} (hi : Ev.inv i o ∈ H) : ∃ r, Ev.ret i r ∈ H :=
  h.all_returned (h.no_deadlock (levelsWP hU hB) hs) hi

end

/-! ## Concrete cases -/

/-- Two kinds of functions of `Range`, told apart by what they return for `0`: the function of the first kind begins a `Range` with a function of the
second kind, recovers the panic of it and clears the map. -/
def recoversW : UsersWP Nat Nat := fun op _ _ _ tr => match op, tr with
  | .range f, [] => if f 0 0 0 then some (.inl (.range fun _ _ _ => false)) else none
  | .range f, [(_, none)] => if f 0 0 0 then some (.inr .clear) else none
  | _, _ => none

/-- For the concrete cases beside the theorems. -/
def depthKindW : Op Nat Nat ⊕ ClearOp → Nat
  | .inl (.range f) => if f 0 0 0 then 2 else 1
  | _ => 0

theorem recoversW_some {op : Op Nat Nat} {o : Op Nat Nat ⊕ ClearOp} {k n : Nat} {v : Option Nat} {tr : List ((Op Nat Nat ⊕ ClearOp) × Option (Res Nat Nat))}
    (h : recoversW op k v n tr = some o) : (∃ f, op = .range f) ∧ depthKindW o < depthKindW (.inl op) ∧ tr.length < 2 := by
  cases op <;> simp [recoversW] at h
  rename_i f
  match tr, h with
  | [], h =>
    simp only [Option.ite_none_right_eq_some, Option.some.injEq] at h
    obtain ⟨h1, rfl⟩ := h
    simp [depthKindW, h1]
  | [(_, none)], h =>
    simp only [Option.ite_none_right_eq_some, Option.some.injEq] at h
    obtain ⟨h1, rfl⟩ := h
    simp [depthKindW, h1]
  | [(_, some _)], h => simp at h
  | _ :: _ :: _, h => simp at h

theorem recoversW_depth : DepthWP recoversW depthKindW := fun _ _ _ _ _ _ h => (recoversW_some h).2.1

theorem recoversW_range : RangeOnlyWP recoversW := fun _ _ _ _ _ _ h => (recoversW_some h).1

theorem recoversW_finite : FiniteWP recoversW := by
  intro op k v n
  refine Subrelation.wf (r := InvImage (· < ·) fun tr => 2 - tr.length) ?_ (InvImage.wf _ Nat.lt_wfRel.wf)
  rintro tr' tr ⟨o, r, h, rfl⟩
  have := (recoversW_some h).2.2
  simp only [InvImage, List.length_append, List.length_singleton]
  omega

/-- The function of a `Range` begins a `Range` whose function panics, recovers, and clears the map; a `Load` of another goroutine that overlaps the
`Clear` panics, too; a `Delete` has been begun. -/
theorem demoRecoversW : ∃ n : NConf (GW Nat Nat) _ _ _, NExec (progWP secondPanics) (fnsWP recoversW) n [.inv 1 (.inl (.store 0 5)), .ret 1 (some .unit),
    .inv 2 (.inl (.range fun _ _ _ => true)), .inv 3 (.inl (.range fun _ _ _ => false)), .ret 3 none, .inv 6 (.inl (.load 0)), .inv 4 (.inr .clear),
    .ret 6 (some .panic), .ret 4 (some .unit), .ret 2 (some (.visited [(0, 5)] true)), .inv 5 (.inl (.delete 0))] ∧ n.stack 8 = [(5, [])] :=
  exists_nexec ([.start 7 1 (.inl (.store 0 5))] ++ nrunsW 11 7 ++ [.start 7 2 (.inl (.range fun _ _ _ => true))] ++ nrunsW 7 7 ++
    [.nest 7 3] ++ nrunsW 5 7 ++ [.start 9 6 (.inl (.load 0)), .run 9 0, .nest 7 4] ++ nrunsW 3 7 ++ nrunsW 2 9 ++ nrunsW 4 7 ++ nrunsW 3 7 ++
    [.start 8 5 (.inl (.delete 0))]) _ _ (by exact And.intro rfl rfl)

example := demoRecoversW.elim fun _ h => C140_linearizable_partial h.1 (by simp)

example := demoRecoversW.elim fun _ h => C140_observed h.1

example := demoRecoversW.elim fun _ h => C140_panics (i := 6) h.1 (by simp)

example := demoRecoversW.imp fun _ h => C140_ends recoversW_depth recoversW_finite h.1

/-- From there an execution leads to a state in which nothing moves, and `Delete` has returned. -/
example : ∃ n H r, NExec (progWP secondPanics) (fnsWP recoversW) n H ∧ n.Stuck (progWP secondPanics) (fnsWP recoversW) ∧ Ev.ret 3 none ∈ H ∧ Ev.ret 5 r ∈ H := by
  obtain ⟨n, h, _⟩ := demoRecoversW
  obtain ⟨n', H', h1, h2⟩ := exists_stuck (C140_ends recoversW_depth recoversW_finite h) _
  have h3 := h1.exec h
  obtain ⟨r, hr⟩ := C140_returns_partial recoversW_range secondPanics_range h3 h2 (i := 5) (o := .inl (.delete 0)) (by simp)
  exact ⟨n', _, r, h3, h2, by simp, hr⟩

end Verif.XSync.MapWords

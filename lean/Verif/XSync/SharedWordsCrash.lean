import Verif.XSync.MapWordsCrash
import Verif.XSync.SharedNestedCrash
import Verif.XSync.SharedWordsNested
/-!
# C142: user functions of `xsync.SharedMap` that make calls on it, `Clear` included, and panic

`NExec (progSWP m B) (fnsSWP U) n H` are the executions of `SharedWordsNested.lean` in which the functions may panic as well, where `B` allows it:
before, between and after the calls that they make. A call has the result `none` if its function panicked, and `some .panic` if it panicked because
it overlapped a `Clear` (C24).
-/
namespace Verif.XSync.SharedConc
open Verif.Conc Verif.Go
open Verif.XSync.MapConc (Pt inside ClearOp)
open Verif.XSync.Shared (requested)
open Verif.XSync.MapWords (GW PtW progW progS nwW ownW)

variable {V : Type}

/-- The points at which a function of the user runs: inside the calls of the shards (shared_map.go:71, 80, 138). -/
def panicAtSW (B : Panics V) : SO V → CPt (BO V) (BRes V) (PtW Bytes V) → Bool
  | .inl op, .inner tr (_, .inl b) (.pt s) => match inside b s with
    | some (k, v, n) => B op k v ((visits tr).length + n)
    | none => false
  | _, _ => false

/-- What the user functions do, as `UsersSW`; the result `none` of a call is the panic of its function. -/
abbrev UsersSWP (V : Type) := SOp V → Bytes → Option V → Nat → List (SO V × Option (SRes V)) → Option (SO V)

/-- The calls of the functions, as `fnsSW`: shared_map.go:71, 80, 138. -/
def fnsSWP (U : UsersSWP V) : Fns (SO V) (Option (SRes V)) (CPt (BO V) (BRes V) (PtW Bytes V))
  | .inl op, .inner tr (_, .inl b) (.pt s), l => match inside b s with
    | some (k, v, n) => U op k v ((visits tr).length + n) l
    | none => none
  | _, _, _ => none

/-- No function makes calls forever. -/
def FiniteSWP (U : UsersSWP V) : Prop := ∀ op k v n, WellFounded fun tr' tr => ∃ o r, U op k v n tr = some o ∧ tr' = tr ++ [(o, r)]

/-- The depth of nested calls is limited. -/
def DepthSWP (U : UsersSWP V) (rank : SO V → Nat) : Prop := ∀ op k v n tr o, U op k v n tr = some o → rank o < rank (.inl op)

/-- The functions of `ComputeIfAbsent` and `ComputeIfPresent` use only shards that come later than the shard of the key, in some order of the
shards. The functions of `Range` may do anything. -/
def OrderedWP (m : Shape) (pos : Nat → Nat) (U : UsersSWP V) : Prop := ∀ op k₀ k v n tr o x, computes op = some k₀ → U op k v n tr = some o →
  TouchesW m o x → pos (m.index k₀) < pos x

theorem panicAtSW_some {B : Panics V} {o : SO V} {s : CPt (BO V) (BRes V) (PtW Bytes V)} (h : panicAtSW B o s = true) :
    ∃ op tr x b p k v n, o = .inl op ∧ s = .inner tr (x, .inl b) (.pt p) ∧ inside b p = some (k, v, n) ∧ B op k v ((visits tr).length + n) = true := by
  unfold panicAtSW at h
  split at h
  · split at h
    · rename_i op tr x b p _ k v n hi; exact ⟨op, tr, x, b, p, k, v, n, rfl, rfl, hi, h⟩
    · simp at h
  · simp at h

theorem fnsSWP_some {U : UsersSWP V} {o o' : SO V} {s : CPt (BO V) (BRes V) (PtW Bytes V)} {l : List (SO V × Option (SRes V))} (h : fnsSWP U o s l = some o') :
    ∃ op tr x b p k v n, o = .inl op ∧ s = .inner tr (x, .inl b) (.pt p) ∧ inside b p = some (k, v, n) ∧ U op k v ((visits tr).length + n) l = some o' := by
  unfold fnsSWP at h
  split at h
  · split at h
    · rename_i op tr x b p _ k v n hi; exact ⟨op, tr, x, b, p, k, v, n, rfl, rfl, hi, h⟩
    · simp at h
  · simp at h

theorem fnsSWP_wf {U : UsersSWP V} (hU : FiniteSWP U) (o : SO V) (s : CPt (BO V) (BRes V) (PtW Bytes V)) : WellFounded (Longer (fnsSWP U) o s) := by
  by_cases hi : ∃ op tr x b p k v n, o = .inl op ∧ s = .inner tr (x, .inl b) (.pt p) ∧ inside b p = some (k, v, n)
  · obtain ⟨op, tr, x, b, p, k, v, n, rfl, rfl, hi⟩ := hi
    refine Subrelation.wf ?_ (hU op k v ((visits tr).length + n))
    rintro l' l ⟨o', r, h1, h2⟩
    simp only [fnsSWP, hi] at h1
    exact ⟨o', r, h1, h2⟩
  · refine ⟨fun l => ⟨_, ?_⟩⟩
    rintro l' ⟨o', r, h1, _⟩
    obtain ⟨op, tr, x, b, p, k, v, n, h1, h2, h3, _⟩ := fnsSWP_some h1
    exact absurd ⟨op, tr, x, b, p, k, v, n, h1, h2, h3⟩ hi

/-- Proof only: functions that make only the first call. -/
def firstOfSW (U : UsersSWP V) : UsersSW V := fun op k v n tr => match tr with
  | [] => U op k v n []
  | _ => none

/-- Proof only: functions that make some call that the functions `U` make. -/
noncomputable def someOfSW (U : UsersSWP V) : UsersSW V := fun op k v n tr => match tr with
  | [] => none
  | (o, _) :: _ => @ite _ (∃ l, U op k v n l = some o) (Classical.propDecidable _) (some o) none

theorem firstOfSW_finite (U : UsersSWP V) : FiniteSW (firstOfSW U) := by
  intro op k v n
  refine ⟨fun tr => ⟨_, ?_⟩⟩
  rintro tr' ⟨o, r, h, rfl⟩
  refine ⟨_, ?_⟩
  rintro tr'' ⟨o', r', h', _⟩
  cases tr <;> simp [firstOfSW] at h'

variable [DecidableEq V] {m : Shape}

/-- `xsync.SharedMap` with `Clear` and with functions that may panic: shared_map.go:60-168. -/
def progSWP (m : Shape) (B : Panics V) : Prog (Nat → GW Bytes V) (SO V) (Option (SRes V)) (CPt (BO V) (BRes V) (PtW Bytes V)) := (progSW m).crash (panicAtSW B)

theorem finitarySWP {B : Panics V} {U : UsersSWP V} {rank : SO V → Nat} (hd : DepthSWP U rank) (hf : FiniteSWP U) :
    Finitary (progSWP m B) (fnsSWP U) rank (snwW m) := by
  refine (finitarySW (U := firstOfSW U) (rank := rank) ?_ (firstOfSW_finite U)).crash ?_ (fnsSWP_wf hf) ?_ ?_
  · intro op k v n tr o h
    cases tr with
    | nil => exact hd _ _ _ _ _ _ h
    | cons => simp [firstOfSW] at h
  · intro o s tr o' h
    obtain ⟨op, _, _, _, _, k, v, n, rfl, rfl, _, h'⟩ := fnsSWP_some h
    exact hd _ _ _ _ _ _ h'
  · intro o s h
    cases hF : fnsSWP U o s [] with
    | none => rfl
    | some o' =>
      obtain ⟨op, tr, x, b, p, k, v, n, rfl, rfl, hi, h'⟩ := fnsSWP_some hF
      simp [fnsSW, hi, firstOfSW, h'] at h
  · intro o s h
    obtain ⟨op, tr, x, b, p, k, v, n, rfl, rfl, hi, _⟩ := panicAtSW_some h
    cases b <;> cases p <;> simp [inside] at hi
    all_goals first
      | (simp only [snwW, nwW, MapConc.nw, MapConc.lex_iff]; omega)
      | (rename_i w _ _; cases w <;> simp only [snwW, nwW, MapConc.nw, MapConc.lex_iff] <;> omega)

theorem levelsSWP {B : Panics V} {U : UsersSWP V} {pos : Nat → Nat} (hU : OrderedWP m pos U) (hB : RangePanics B) :
    Levels (progSWP m B) (fnsSWP U) (ownSW pos) (lvlW m pos) (top m pos) := by
  refine (levelsSW (U := someOfSW U) ?_).crash ?_ ?_
  · intro op k₀ k v n tr o x h1 h2 h3
    cases tr with
    | nil => simp [someOfSW] at h2
    | cons y tr =>
      obtain ⟨o', r⟩ := y
      simp only [someOfSW] at h2
      split at h2
      · rename_i hl
        obtain ⟨l, hl⟩ := hl
        simp only [Option.some.injEq] at h2
        subst h2
        exact hU _ _ _ _ _ _ _ _ h1 hl h3
      · simp at h2
  · intro o s tr o' h
    obtain ⟨op, tr, x, b, p, k, v, n, rfl, rfl, hi, h'⟩ := fnsSWP_some h
    refine ⟨[(o', .unit)], ?_⟩
    simp only [fnsSW, hi, someOfSW]
    exact if_pos ⟨_, h'⟩
  · intro mm H h i o s hp hb
    obtain ⟨op, tr, x, b, p, k, v, n, rfl, rfl, hi, h'⟩ := panicAtSW_some hb
    obtain ⟨f, rfl⟩ := hB _ _ _ _ h'
    obtain ⟨b', e, hP⟩ := nextW_inl (currentW h hp)
    simp only [Sum.inl.injEq] at e
    subst e
    obtain ⟨e, _⟩ := hP
    simp only [Prod.mk.injEq] at e
    obtain ⟨rfl, rfl⟩ := e
    cases p <;> simp [inside] at hi
    simp [ownSW, ownW, Pt.holds]

section
variable {B : Panics V} {mm : Conf (Nat → GW Bytes V) (SO V) (Option (SRes V)) (CPt (BO V) (BRes V) (PtW Bytes V))} {H : List (Ev (SO V) (Option (SRes V)))}

/-- The loop that waits for another first store is not reached. -/
theorem next_crashSW (h : (progSWP m B).mach.Exec mm H) (i c : Nat) :
    (progSWP m B).mach.next mm i c = (((clientW m).prog progS).crash (panicAtSW B)).mach.next mm i c := by
  obtain ⟨m₀, h₀, hg, ha⟩ := crash_sim h
  simp only [Prog.mach]
  cases hp : mm.pc i with
  | «at» o s =>
    have key : ∀ c, ((clientW m).prog progS).step mm.g i o s c = (progSW m).step mm.g i o s c := fun c => by
      cases s with
      | between tr => rfl
      | inner tr so s =>
        obtain ⟨x, so⟩ := so
        obtain ⟨mx, Hx, h1, h2, h3, -⟩ := (clientW m).part progW h₀ x
        have := MapWords.step_progS h1 (h3 i o tr so s (crash_at ha hp)) c
        rw [h2, hg] at this
        simp only [progSW, Client.prog, this]
    have : (progSWP m B).step mm.g i o s c = (((clientW m).prog progS).crash (panicAtSW B)).step mm.g i o s c := by
      simp only [progSWP, Prog.crash, key]
    dsimp only
    rw [this]
  | _ => rfl

theorem endsSWP (h : (progSWP m B).mach.Exec mm H) : Acc (progSWP m B).Moves mm := by
  obtain ⟨n, hn⟩ := (progSWP m B).finite_calls h
  have ha : Acc (((clientW m).prog progS).crash (panicAtSW B)).Moves mm := (sharedW_sinks.crash (panicAtSW B)).acc hn
  clear hn
  induction ha generalizing H with
  | intro mm _ ih =>
    refine ⟨_, fun m' ⟨l, i, c, hm⟩ => ?_⟩
    have hstep := hm
    rw [next_crashSW h] at hm
    have hx : ∃ H', (progSWP m B).mach.Exec m' H' := by
      cases l with
      | none => exact ⟨H, .tau h (.run _ _ _ _ _ hstep)⟩
      | some e => exact ⟨_, .ev h (.run _ _ _ _ _ hstep)⟩
    obtain ⟨H', hx⟩ := hx
    exact ih m' ⟨l, i, c, hm⟩ hx

end

/-! ## C142 -/

section
variable {B : Panics V} {U : UsersSWP V} {n : NConf (Nat → GW Bytes V) (SO V) (Option (SRes V)) (CPt (BO V) (BRes V) (PtW Bytes V))}
  {H : List (Ev (SO V) (Option (SRes V)))} {opts : List Int}

/-- **C142.** For the others a call whose function panicked is a call that has not returned: the history of the others, nested calls included, has an
explanation in which a `Clear` that has returned has emptied every shard, in order, each at one instant of the call, and every other call has its
effects as in C119. -/
theorem C142_effects (h1 : 1 ≤ requested opts) (h2 : requested opts ≤ 2^31) (hm : newShape opts = some m) (h : NExec (progSWP m B) (fnsSWP U) n H) :
    ∃ L st, ExplainsW m (survived H) L st ∧ RangeOkW (survived H) L st ∧ PresentOkW (survived H) L st := by
  obtain ⟨m₀, h₀, _⟩ := crash_sim h.flat
  exact C119_effects h1 h2 hm h₀

/-- **C142.** For every single key the calls that did not panic, nested ones included, are those of an ordinary map on which `Clear` removes everything,
if no `MStore` has the key and there is no `ComputeIfPresent` on it, whichever functions panic. -/
theorem C142_key_partial (h1 : 1 ≤ requested opts) (h2 : requested opts ≤ 2^31) (hm : newShape opts = some m) (h : NExec (progSWP m B) (fnsSWP U) n H) (k : Bytes)
    (hms : ∀ i data, Ev.inv i (.inl (.mstore data)) ∈ H → ∀ y ∈ data, y.1 ≠ k)
    (hcp : ∀ i f, Ev.inv i (.inl (.computeIfPresent k f)) ∉ H) : Linearizable strictSharedC (about (· = k) (survived H)) := by
  obtain ⟨m₀, h₀, _⟩ := crash_sim h.flat
  exact C119_key_partial h1 h2 hm h₀ k (fun i data hi => hms i data (mem_survived_inv.mp hi)) fun i f hi => hcp i f (mem_survived_inv.mp hi)

/-- **C142.** A call that panics although no function of it has panicked overlaps a `Clear`. -/
theorem C142_panics (h1 : 1 ≤ requested opts) (h2 : requested opts ≤ 2^31) (hm : newShape opts = some m) (h : NExec (progSWP m B) (fnsSWP U) n H) {i : Nat}
    (hi : Ev.ret i (some .panic) ∈ H) : (∃ op, Ev.inv i (.inl op) ∈ H) ∧ ∃ j, Ev.inv j (.inr .clear) ∈ H ∧ ¬ Before H j i ∧ ¬ Before H i j := by
  obtain ⟨m₀, h₀, _, ha⟩ := crash_sim h.flat
  obtain ⟨⟨op, h1⟩, j, h2, h3, h4⟩ := C119_panics h1 h2 hm h₀ (mem_survived_ret.mpr hi)
  have hh := (progSWP m B).hist h.flat
  refine ⟨⟨op, mem_survived_inv.mp h1⟩, j, mem_survived_inv.mp h2, fun hb => h3 (MapWords.before_survived hb fun hn => ?_),
    fun hb => h4 (MapWords.before_survived hb fun hn => ?_)⟩
  · obtain ⟨o, hv⟩ := hh.2 j none hn
    obtain ⟨x, hx⟩ := (hh.1 j (.inr .clear)).1 (mem_survived_inv.mp h2)
    have := ha j
    rw [hv] at hx this
    simp only [Option.some.injEq, Prod.mk.injEq] at hx
    obtain ⟨rfl, _⟩ := hx
    obtain ⟨s, hs, _⟩ := this
    simp [panicAtSW] at hs
  · obtain ⟨o, hv⟩ := hh.2 i none hn
    obtain ⟨o', hv'⟩ := hh.2 i _ hi
    rw [hv] at hv'
    simp at hv'

/-- **C142.** If every function makes finitely many calls and the depth of the nesting is limited, then no schedule runs on forever, unless
goroutines begin new calls, whichever functions panic. -/
theorem C142_ends {rank : SO V → Nat} (hd : DepthSWP U rank) (hf : FiniteSWP U) (h : NExec (progSWP m B) (fnsSWP U) n H) :
    Acc (NMoves (progSWP m B) (fnsSWP U)) n :=
  h.ends (finitarySWP hd hf) endsSWP

/-- **C142, the part that holds.** If only functions of `Range` panic, and those of `ComputeIfAbsent` and `ComputeIfPresent` use only shards that come
later than the shard of their key, then every call returns or panics: where nothing moves, none is left. Missing: the same without these conditions,
which is false (`C124_shared_refuted`, `C141_clear_refuted`). -/
theorem C142_returns_partial {pos : Nat → Nat} (hU : OrderedWP m pos U) (hB : RangePanics B) (h : NExec (progSWP m B) (fnsSWP U) n H)
    (hs : n.Stuck (progSWP m B) (fnsSWP U)) {i : Nat} {o : SO V} (hi : Ev.inv i o ∈ H) : ∃ r, Ev.ret i r ∈ H :=
  h.all_returned (h.no_deadlock (levelsSWP hU hB) hs) hi

end

/-! ## Concrete cases -/

/-- A function of `Range` calls `Clear` and then `ComputeIfAbsent`, whose functions for keys of shard 0 load key 98, which is in shard 1. -/
def clearsSWP : UsersSWP Nat := fun op k _ _ tr => match op, tr with
  | .range _, [] => some (.inr .clear)
  | .range _, [_] => some (.inl (.computeIfAbsent (0 :: k) fun _ _ => 7))
  | .computeIfAbsent k₀ _, [] => if two.index k₀ = 0 then some (.inl (.load [98])) else none
  | _, _ => none

theorem clearsSWP_some {op : SOp Nat} {o : SO Nat} {k : Bytes} {n : Nat} {v : Option Nat} {tr : List (SO Nat × Option (SRes Nat))} (h : clearsSWP op k v n tr = some o) :
    depthSW o < depthTwo op ∧ tr.length < 2 ∧ ∀ k₀, computes op = some k₀ → two.index k₀ = 0 ∧ o = .inl (.load [98]) := by
  cases op <;> simp [clearsSWP] at h
  case range =>
    match tr, h with
    | [], h => simp at h; subst h; simp [depthSW, depthTwo, computes]
    | [_], h => simp at h; subst h; simp [depthSW, depthTwo, computes]
    | _ :: _ :: _, h => simp at h
  case computeIfAbsent =>
    match tr, h with
    | [], h => simp at h; obtain ⟨h', rfl⟩ := h; simp [depthSW, depthTwo, computes, h']
    | _ :: _, h => simp at h

theorem clearsSWP_depth : DepthSWP clearsSWP depthSW := fun _ _ _ _ _ _ h => (clearsSWP_some h).1

theorem clearsSWP_finite : FiniteSWP clearsSWP := by
  intro op k v n
  refine Subrelation.wf (r := InvImage (· < ·) fun tr => 2 - tr.length) ?_ (InvImage.wf _ Nat.lt_wfRel.wf)
  rintro tr' tr ⟨o, r, h, rfl⟩
  have := (clearsSWP_some h).2.1
  simp only [InvImage, List.length_append, List.length_singleton]
  omega

theorem clearsSWP_ordered : OrderedWP two id clearsSWP := by
  intro op k₀ k v n tr o x h1 h2 h3
  obtain ⟨h4, rfl⟩ := (clearsSWP_some h2).2.2 k₀ h1
  have h5 : two.index [98] = x := h3
  simp only [id, h4, ← h5]
  decide

set_option maxRecDepth 4000 in
/-- The function of a `Range` calls `Clear` and then `ComputeIfAbsent`, whose function calls `Load`, and panics then; a `Load` of another goroutine,
which overlaps the `Clear`, has panicked; a `Delete` has been begun. -/
theorem demoPanicsSW : ∃ n : NConf (Nat → GW Bytes Nat) _ _ _, NExec (progSWP two rangesPanic) (fnsSWP clearsSWP) n [.inv 1 (.inl (.store [97] 5)),
    .ret 1 (some .unit), .inv 2 (.inl (.range fun _ _ _ => true)), .inv 6 (.inl (.load [97])), .inv 3 (.inr .clear), .ret 6 (some .panic), .ret 3 (some .unit),
    .inv 4 (.inl (.computeIfAbsent [0, 97] fun _ _ => 7)), .inv 5 (.inl (.load [98])), .ret 5 (some (.value none)), .ret 4 (some (.loaded (some 7) false)),
    .ret 2 none, .inv 8 (.inl (.delete [97]))] ∧ n.stack 8 = [(8, [])] :=
  exists_nexec ([.start 7 1 (.inl (.store [97] 5))] ++ nrunsSW 13 7 ++ [.start 7 2 (.inl (.range fun _ _ _ => true))] ++ nrunsSW 8 7 ++
    [.start 9 6 (.inl (.load [97]))] ++ nrunsSW 2 9 ++ [.nest 7 3] ++ nrunsSW 4 7 ++ nrunsSW 3 9 ++ nrunsSW 12 7 ++ [.nest 7 4] ++ nrunsSW 9 7 ++ [.nest 7 5] ++
    nrunsSW 11 7 ++ [.start 8 8 (.inl (.delete [97]))]) _ _ (by exact And.intro rfl rfl)

example := demoPanicsSW.elim fun _ h => C142_effects (opts := [2]) (by decide) (by decide) rfl h.1

example := demoPanicsSW.elim fun _ h => C142_panics (opts := [2]) (i := 6) (by decide) (by decide) rfl h.1 (by simp)

example := demoPanicsSW.elim fun _ h => C142_key_partial (opts := [2]) (by decide) (by decide) rfl h.1 [97] (by simp) (by simp)

example := demoPanicsSW.imp fun _ h => C142_ends clearsSWP_depth clearsSWP_finite h.1

/-- From there an execution leads to a state in which nothing moves, and `Delete` has returned. -/
example : ∃ n H r, NExec (progSWP two rangesPanic) (fnsSWP clearsSWP) n H ∧ n.Stuck (progSWP two rangesPanic) (fnsSWP clearsSWP) ∧ Ev.ret 2 none ∈ H ∧ Ev.ret 8 r ∈ H := by
  obtain ⟨n, h, _⟩ := demoPanicsSW
  obtain ⟨n', H', h1, h2⟩ := exists_stuck (C142_ends clearsSWP_depth clearsSWP_finite h) _
  have h3 := h1.exec h
  obtain ⟨r, hr⟩ := C142_returns_partial clearsSWP_ordered rangesPanic_range h3 h2 (i := 8) (o := .inl (.delete [97])) (by simp)
  exact ⟨n', _, r, h3, h2, by simp, hr⟩

end Verif.XSync.SharedConc

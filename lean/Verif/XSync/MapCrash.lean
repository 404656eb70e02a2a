import Verif.Conc.Crash
import Verif.XSync.MapNested
import Verif.XSync.MapConcEnds
/-!
# `xsync.Map` with user functions that panic

The calls are those of `xsync/map.go:94-520`, modelled in `MapConc`. The functions given to `Range` (map.go:476), `ComputeIfAbsent`
(map.go:292, 317, 329) and `ComputeIfPresent` (map.go:372, 384) may panic; the panic leaves the call, because nothing in `map.go` recovers, and it
leaves it at once, because nothing in these calls is deferred. What the caller does with the panic is not modelled: a goroutine that
recovers it can make further calls.
-/
namespace Verif.XSync.MapConc
open Verif.Conc Verif.Go

variable {K V : Type} [DecidableEq K] [DecidableEq V]

/-- Which calls of user functions may panic: those of the function of the operation for a key, the value shown to it and the number of
pairs that `Range` has shown before. -/
abbrev Panics (K V : Type) := Op K V → K → Option V → Nat → Bool

/-- The points at which a call may panic: `MapConc.inside` says where a function of the user runs. -/
def panicAt (U : Panics K V) (op : Op K V) (s : Pt K V) : Bool := match inside op s with
  | some (k, v, n) => U op k v n
  | none => false

/-- `xsync.Map` with functions that may panic: result `none` is a panic of the function. The counter of the calls of functions, a history
variable, does not count the call that panics. -/
def progP (U : Panics K V) : Prog (G K V) (Op K V) (Option (Res K V)) (Pt K V) := prog.crash (panicAt U)

/-- Abbreviation. -/
abbrev ConfP (K V : Type) := Conf (G K V) (Op K V) (Option (Res K V)) (Pt K V)

omit [DecidableEq K] [DecidableEq V] in
theorem panicAt_some {U : Panics K V} {op : Op K V} {s : Pt K V} (h : panicAt U op s = true) : ∃ k v n, inside op s = some (k, v, n) ∧ U op k v n = true := by
  simp only [panicAt] at h
  split at h
  · rename_i k v n hi; exact ⟨k, v, n, hi, h⟩
  · simp at h

omit [DecidableEq K] [DecidableEq V] in
theorem panicAt_quiet (U : Panics K V) (op : Op K V) {s : Pt K V} (h : s.quiet = true) : panicAt U op s = false := by
  simp [panicAt, inside_quiet op h]

omit [DecidableEq V] in
/-- At a function of the user the call has had no effect yet. -/
theorem inside_floc {a : A K V} {gh : Gh K V} {i : Nat} {op : Op K V} {s : Pt K V} (hs : (inside op s).isSome) (hf : FLoc a gh i op s) :
    gh.st i = .invoked op := by
  cases s <;> cases op <;> simp [inside] at hs
  all_goals first
    | exact hf.1
    | exact hf.1.1

/-- A function that runs while its call holds the lock is one of `ComputeIfAbsent` or `ComputeIfPresent`. -/
def computes : Op K V → Prop
  | .computeIfAbsent _ _ | .computeIfPresent _ _ => True
  | _ => False

omit [DecidableEq K] [DecidableEq V] in
theorem inside_holds {op : Op K V} {s : Pt K V} (h : (inside op s).isSome) (hs : s.holds = true) : computes op := by
  cases op <;> cases s <;> simp_all [inside, Pt.holds, computes]

theorem effects {U : Panics K V} {m : ConfP K V} {H : List (Ev (Op K V) (Option (Res K V)))} (h : (progP U).mach.Exec m H) :
    ∃ L st, Linearization mapSpec (survived H) L st ∧ ∀ x ∈ L, Ev.ret x.1 none ∉ H := by
  obtain ⟨m₀, h₀, hg, ha⟩ := crash_sim h
  obtain ⟨gh, hr, hh, hI⟩ := simulation h₀
  obtain ⟨L, st, hL, hno, _⟩ := hr.linearization_effects
  rw [hh] at hL
  refine ⟨L, st, hL, fun x hx hp => ?_⟩
  obtain ⟨op, hv⟩ := ((progP U).hist h).2 x.1 none hp
  have := ha x.1
  rw [hv] at this
  obtain ⟨s, hB, hw⟩ := this
  obtain ⟨k, v, n, hi, _⟩ := panicAt_some hB
  exact hno x hx op (inside_floc (by simp [hi]) (hI.floc _ _ _ hw))

/-- Where nothing moves and a call has not returned, some function of `ComputeIfAbsent` or `ComputeIfPresent` has panicked and the lock is
held for ever. -/
theorem blocked {U : Panics K V} {m : ConfP K V} {H : List (Ev (Op K V) (Option (Res K V)))} (h : (progP U).mach.Exec m H)
    (hs : ∀ j c, (progP U).mach.next m j c = none) {i : Nat} {op : Op K V} (hi : Ev.inv i op ∈ H) (hr : ∀ r, Ev.ret i r ∉ H) :
    m.g.mu ≠ none ∧ ∃ j op' k v n, computes op' ∧ Ev.inv j op' ∈ H ∧ Ev.ret j none ∈ H ∧ U op' k v n = true := by
  obtain ⟨m₀, h₀, hg, ha⟩ := crash_sim h
  obtain ⟨gh, _, _, hI⟩ := simulation h₀
  rw [hg] at hI
  rcases (progP U).pending h hi hr with ⟨s, hp⟩ | ⟨r, hp⟩
  · have hv : m₀.view i = some (op, .inl s) := by
      have := ha i
      simpa [Conf.view, hp, Proc.view, Alike] using this
    rcases crash_stuck h hs ha hv with hst | ⟨_, hpan, _⟩
    · have hlock : s = .lock ∧ m.g.mu ≠ none := Classical.byContradiction fun hc => by
        obtain ⟨y, hy⟩ := enabled hI hv fun hl => Classical.byContradiction fun hc' => hc ⟨hl, hc'⟩
        have := hst 0
        simp only [prog] at this
        rw [hy] at this
        simp at this
      refine ⟨hlock.2, ?_⟩
      obtain ⟨l, hl⟩ := Option.ne_none_iff_exists'.mp hlock.2
      obtain ⟨o, s', h1, h2⟩ := hI.muIn l hl
      rcases crash_stuck h hs ha h1 with hst' | ⟨h3, h4, h5⟩
      · obtain ⟨y, hy⟩ := enabled hI h1 fun hl' => by subst hl'; simp [Pt.holds] at h2
        have := hst' 0
        simp only [prog] at this
        rw [hy] at this
        simp at this
      · obtain ⟨k, v, n, h6, h7⟩ := panicAt_some h5
        exact ⟨l, o, k, v, n, inside_holds (by simp [h6]) h2, h3, h4, h7⟩
    · exact absurd hpan (hr none)
  · have := hs i 0
    simp [Prog.mach, hp] at this

/-- Nothing is in the read map, and the lock is held by a call that panicked: all calls made from now on wait for the lock. -/
def Dead (m : ConfP K V) : Prop :=
  m.g.mu ≠ none ∧ m.g.read = [] ∧ m.g.amended = true ∧
    ∀ i, m.pc i = .idle ∨ (∃ op, m.pc i = .at op .start) ∨ (∃ op, m.pc i = .at op .lock) ∨ ∃ op r, m.pc i = .done op r

theorem Dead.keeps {U : Panics K V} {m m' : ConfP K V} {e : Option (Ev (Op K V) (Option (Res K V)))}
    (hd : Dead m) (hs : (progP U).mach.Step m e m') : Dead m' ∧ ∀ i r, e ≠ some (.ret i r) := by
  obtain ⟨h1, h2, h3, h4⟩ := hd
  cases hs with
  | inv i op _ he =>
    simp only [Prog.mach] at he
    split at he
    · simp only [Option.some.injEq] at he
      subst he
      refine ⟨⟨h1, h2, h3, fun j => ?_⟩, by simp⟩
      by_cases hji : j = i
      · subst hji; right; left; exact ⟨op, by simp [progP, Prog.crash, prog]⟩
      · simpa [upd_ne _ _ hji] using h4 j
    · simp at he
  | run i c _ _ he =>
    rcases h4 i with hp | ⟨op, hp⟩ | ⟨op, hp⟩ | ⟨op, r, hp⟩
    · simp [Prog.mach, hp] at he
    · have hst : (progP U).step m.g i op .start c = some (m.g, .inl .lock) := by
        have hq : panicAt U op (.start : Pt K V) = false := panicAt_quiet U op rfl
        have hx : startStep m.g op = .inl .lock := by cases op <;> simp [startStep, h2, h3]
        simp [progP, Prog.crash, hq, prog, step, hx, lift]
      simp only [Prog.mach, hp, hst, Option.some.injEq, Prod.mk.injEq] at he
      obtain ⟨rfl, rfl⟩ := he
      refine ⟨⟨h1, h2, h3, fun j => ?_⟩, by simp⟩
      by_cases hji : j = i
      · subst hji; right; right; left; exact ⟨op, by simp⟩
      · simpa [upd_ne _ _ hji] using h4 j
    · have hst : (progP U).step m.g i op .lock c = none := by
        have hq : panicAt U op (.lock : Pt K V) = false := panicAt_quiet U op rfl
        have hm : m.g.mu.isSome = true := Option.isSome_iff_ne_none.mpr h1
        simp [progP, Prog.crash, hq, prog, step, hm, lift]
      simp [Prog.mach, hp, hst] at he
    · simp [Prog.mach, hp] at he

/-- No call returns any more. -/
theorem Dead.forever {U : Panics K V} {m m' : ConfP K V} {H H' : List (Ev (Op K V) (Option (Res K V)))} (hd : Dead m)
    (ho : (progP U).mach.Onward m H m' H') {i : Nat} {r : Option (Res K V)} (hr : Ev.ret i r ∈ H') : Ev.ret i r ∈ H := by
  induction ho with
  | refl => exact hr
  | @step _ _ _ _ _ l hs _ ih =>
    obtain ⟨h1, h2⟩ := hd.keeps hs
    rcases List.mem_append.mp (ih h1 hr) with h | h
    · exact h
    · cases l with
      | none => simp at h
      | some e => simp only [Option.toList_some, List.mem_singleton] at h; subst h; exact absurd rfl (h2 i r)

end Verif.XSync.MapConc

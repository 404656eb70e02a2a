import Verif.XSync.MapCrash
import Verif.XSync.SharedNested
/-!
# `xsync.SharedMap` with user functions that panic

As `MapCrash.lean`, for the calls of `xsync/shared_map.go:60-146`: a panic of a function leaves the call of the shard and the call of the
`SharedMap`, in which nothing is deferred either.
-/
namespace Verif.XSync.SharedConc
open Verif.Conc Verif.Go
open Verif.XSync.MapConc (G Pt inside)

variable {V : Type} [DecidableEq V]

/-- Which calls of user functions may panic, as `MapConc.Panics`. -/
abbrev Panics (V : Type) := SOp V → Bytes → Option V → Nat → Bool

/-- The points at which a call may panic: inside the calls of the shards (shared_map.go:71, 80, 138). -/
def panicAt (U : Panics V) : SOp V → CPt (BOp V) (BRes V) (Pt Bytes V) → Bool
  | op, .inner tr o s => match inside o.2 s with
    | some (k, v, n) => U op k v ((visits tr).length + n)
    | none => false
  | _, .between _ => false

/-- `xsync.SharedMap` with functions that may panic: result `none` is a panic of the function. -/
def progP (m : Shape) (U : Panics V) : Prog (Nat → G Bytes V) (SOp V) (Option (SRes V)) (CPt (BOp V) (BRes V) (Pt Bytes V)) := (prog m).crash (panicAt U)

/-- Abbreviation. -/
abbrev CfP (V : Type) := Conf (Nat → G Bytes V) (SOp V) (Option (SRes V)) (CPt (BOp V) (BRes V) (Pt Bytes V))

variable {m : Shape} {U : Panics V} {mm : CfP V} {H : List (Ev (SOp V) (Option (SRes V)))}

omit [DecidableEq V] in
theorem panicAt_some {op : SOp V} {s : CPt (BOp V) (BRes V) (Pt Bytes V)} (h : panicAt U op s = true) :
    ∃ tr o p k v n, s = .inner tr o p ∧ inside o.2 p = some (k, v, n) ∧ U op k v ((visits tr).length + n) = true := by
  cases s with
  | between tr => simp [panicAt] at h
  | inner tr o p =>
    simp only [panicAt] at h
    split at h
    · rename_i k v n hi; exact ⟨tr, o, p, k, v, n, rfl, hi, h⟩
    · simp at h

/-- A call whose function runs: it is a `Range`, or a `ComputeIfAbsent` or `ComputeIfPresent` on the shard of its key. -/
theorem function_of {mm : Cf V} {H : List (Ev (SOp V) (SRes V))} (h : (prog m).mach.Exec mm H) {i : Nat} {op : SOp V} {tr : Tr V} {o : Nat × BOp V}
    {p : Pt Bytes V} (hp : mm.pc i = .at op (.inner tr o p)) (hi : (inside o.2 p).isSome) :
    ((∃ f, op = .range f) ∧ p.holds = false) ∨ ∃ k, computes op = some k ∧ o.1 = m.index k := by
  have hP := next_inl (current h hp)
  cases op with
  | range f =>
    obtain ⟨rfl, _⟩ := hP
    cases p <;> simp [inside] at hi
    exact .inl ⟨⟨f, rfl⟩, rfl⟩
  | mstore data =>
    obtain ⟨k, v, _, rfl⟩ := hP
    simp [inside] at hi
  | computeIfAbsent k f =>
    obtain ⟨k', b, h1, rfl, _⟩ := hP
    simp only [keyed, Option.some.injEq, Prod.mk.injEq] at h1
    exact .inr ⟨k, rfl, by rw [h1.1]⟩
  | computeIfPresent k f =>
    obtain ⟨k', b, h1, rfl, _⟩ := hP
    simp only [keyed, Option.some.injEq, Prod.mk.injEq] at h1
    exact .inr ⟨k, rfl, by rw [h1.1]⟩
  | _ =>
    obtain ⟨k', b, h1, rfl, _⟩ := hP
    simp only [keyed, Option.some.injEq, Prod.mk.injEq] at h1
    obtain ⟨_, rfl⟩ := h1
    simp [inside] at hi

omit [DecidableEq V] in
theorem pc_of_view {mm : Cf V} {i : Nat} {op : SOp V} {s : CPt (BOp V) (BRes V) (Pt Bytes V)} (h : mm.view i = some (op, .inl s)) : mm.pc i = .at op s := by
  simp only [Conf.view] at h
  cases hq : mm.pc i <;> simp [hq, Proc.view] at h
  rw [h.1, h.2]

theorem effects (hg : m.Good) (h : (progP m U).mach.Exec mm H) : ∃ L st, Explains (survived H) L st ∧ RangeOk (survived H) L st ∧ PresentOk (survived H) L st ∧
    ∀ n i op r, L[n]? = some (i, op, r) → Ev.ret i none ∈ H → (∃ f, op = .range f) ∧ st (n + 1) = st n := by
  obtain ⟨m₀, h₀, _, ha⟩ := crash_sim h
  obtain ⟨L, st, h1, h2, h3, h4⟩ := explained_calm (g₀ := fun _ => MapConc.prog.init) (fun _ => MapConc.blank_zero) hg h₀
  refine ⟨L, st, h1, h2, h3, fun n i o r hn hp => ?_⟩
  obtain ⟨op, hv⟩ := ((progP m U).hist h).2 i none hp
  have := ha i
  rw [hv] at this
  obtain ⟨s, hB, hw⟩ := this
  obtain ⟨tr, o', p, k, v, n', rfl, hi, _⟩ := panicAt_some hB
  have hpc := pc_of_view hw
  have hmem := List.mem_of_getElem? hn
  rcases function_of h₀ hpc (by simp [hi]) with ⟨⟨f, rfl⟩, _⟩ | ⟨k', hk, _⟩
  · have hinv : Ev.inv i (SOp.range f) ∈ survived H := mem_survived_inv.mpr ((((progP m U).hist h).1 i _).mpr ⟨_, hv⟩)
    have ho : o = .range f := h1.started i _ hinv o (List.mem_map.mpr ⟨_, List.mem_filter.mpr ⟨hmem, by simp⟩, rfl⟩)
    subst ho
    refine ⟨⟨f, rfl⟩, ?_⟩
    have hl := h1.legal n i _ r hn
    generalize st (n + 1) = z at hl
    cases hl
    rfl
  · refine absurd rfl (h4 i op tr o' p hpc ?_ (fun a gh j hf => MapConc.inside_floc (by simp [hi]) hf) _ hmem)
    cases op <;> simp [computes] at hk <;> trivial

/-- Where nothing moves and a call has not returned, some function of `ComputeIfAbsent` or `ComputeIfPresent` has panicked for a key of a shard
that the call uses. -/
theorem blocked (h : (progP m U).mach.Exec mm H) (hs : ∀ j c, (progP m U).mach.next mm j c = none) {i : Nat} {op : SOp V} (hi : Ev.inv i op ∈ H)
    (hr : ∀ r, Ev.ret i r ∉ H) :
    ∃ j op' k, computes op' = some k ∧ Ev.inv j op' ∈ H ∧ Ev.ret j none ∈ H ∧ Touches m op (m.index k) ∧ ∃ k' v n, U op' k' v n = true := by
  obtain ⟨m₀, h₀, hg, ha⟩ := crash_sim h
  rcases (progP m U).pending h hi hr with ⟨s, hp⟩ | ⟨r, hp⟩
  · have hv : m₀.view i = some (op, .inl s) := by
      have := ha i
      simpa [Conf.view, hp, Proc.view, Alike] using this
    have hpc := pc_of_view hv
    rcases crash_stuck h hs ha hv with hst | ⟨_, hpan, _⟩
    · rw [← hg] at hst
      cases s with
      | between tr =>
        have := hst 0
        simp only [prog, Client.prog] at this
        split at this <;> simp at this
      | inner tr o s =>
        obtain ⟨x, o⟩ := o
        obtain ⟨vx, gx, hI, h1, h2⟩ := shards h₀ x
        have hvx := h1 i op tr o s hpc
        have stop : ∀ {i op tr o s}, (∀ c, (prog m).step m₀.g i op (.inner tr (x, o) s) c = none) → ∀ y, MapConc.step (m₀.g x) (Nat.pair i tr.length) o s 0 ≠ some y := by
          rintro i op tr o s hst ⟨g', y⟩ hy
          have := hst 0
          have hy' : MapConc.prog.step (m₀.g x) (Nat.pair i tr.length) o s 0 = some (g', y) := hy
          cases y <;> simp [prog, Client.prog, hy'] at this
        have hlock : s = .lock ∧ (m₀.g x).mu ≠ none := Classical.byContradiction fun hc => by
          obtain ⟨y, hy⟩ := MapConc.enabled hI hvx fun hl => Classical.byContradiction fun hc' => hc ⟨hl, hc'⟩
          exact stop hst y hy
        obtain ⟨l, hl⟩ := Option.ne_none_iff_exists'.mp hlock.2
        obtain ⟨o', s', a1, a2⟩ := hI.muIn l hl
        obtain ⟨j, op', tr', rfl, b2⟩ := h2 _ _ _ a1
        rcases crash_stuck h hs ha (i := j) (op := op') (s := .inner tr' (x, o') s') (by simp [Conf.view, b2, Proc.view]) with hst' | ⟨c1, c2, c3⟩
        · obtain ⟨y, hy⟩ := MapConc.enabled hI a1 fun hl' => by subst hl'; simp [Pt.holds] at a2
          rw [← hg] at hst'
          exact absurd hy (stop hst' y)
        · obtain ⟨tr₂, o₂, p₂, k, v, n, e, d2, d3⟩ := panicAt_some c3
          simp only [CPt.inner.injEq] at e
          obtain ⟨rfl, rfl, rfl⟩ := e
          rcases function_of h₀ b2 (by simp [d2]) with ⟨_, hh⟩ | ⟨k₀, e1, e2⟩
          · rw [hh] at a2; simp at a2
          · exact ⟨j, op', k₀, e1, c1, c2, by rw [← e2]; exact (touches (current h₀ hpc)).1, k, v, _, d3⟩
    · exact absurd hpan (hr none)
  · have := hs i 0
    simp [Prog.mach, hp] at this

/-- The lock of the shard `x` is held by a call that panicked and nothing is in its read map; of the calls that use this shard first, those
not in `D` have not come beyond it. -/
def Dead (m : Shape) (x : Nat) (D : Nat → Prop) (mm : CfP V) : Prop :=
  (mm.g x).mu ≠ none ∧ (mm.g x).read = [] ∧ (mm.g x).amended = true ∧
    (∀ i op tr o p, mm.pc i = .at op (.inner tr (x, o) p) → p = .start ∨ p = .lock) ∧
    ∀ i op b z, ¬ D i → m.next op ([] : Tr V) = .inl (x, b) → mm.view i = some (op, z) → z = .inl (.between []) ∨ ∃ p, z = .inl (.inner [] (x, b) p)

theorem Dead.keeps {x : Nat} {D : Nat → Prop} {mm mm' : CfP V} {e : Option (Ev (SOp V) (Option (SRes V)))} (hd : Dead m x D mm)
    (hs : (progP m U).mach.Step mm e mm') : Dead m x D mm' := by
  obtain ⟨h1, h2, h3, h4, h5⟩ := hd
  have move : ∀ (g : Nat → G Bytes V) (i : Nat) (q : Proc (SOp V) (Option (SRes V)) (CPt (BOp V) (BRes V) (Pt Bytes V))), g x = mm.g x →
      (∀ op tr o p, q = .at op (.inner tr (x, o) p) → p = .start ∨ p = .lock) →
      (∀ op b z, ¬ D i → m.next op ([] : Tr V) = .inl (x, b) → q.view = some (op, z) → z = .inl (.between []) ∨ ∃ p, z = .inl (.inner [] (x, b) p)) →
      Dead m x D ⟨g, upd mm.pc i q⟩ := by
    intro g i q e1 e2 e3
    refine ⟨by simpa only [e1] using h1, by simpa only [e1] using h2, by simpa only [e1] using h3, fun j op tr o p hj => ?_, fun j op b z hD hn hj => ?_⟩
    · by_cases hji : j = i
      · subst hji; simp only [upd_same] at hj; exact e2 op tr o p hj
      · simp only [upd_ne _ _ hji] at hj; exact h4 j op tr o p hj
    · rw [view_upd] at hj
      by_cases hji : j = i
      · subst hji; rw [upd_same] at hj; exact e3 op b z hD hn hj
      · rw [upd_ne _ _ hji] at hj; exact h5 j op b z hD hn hj
  cases hs with
  | inv i op _ he =>
    simp only [Prog.mach] at he
    split at he
    · simp only [Option.some.injEq] at he
      subst he
      refine move _ _ _ rfl (fun op' tr o p hq => ?_) (fun op' b z _ _ hq => ?_)
      · simp [progP, Prog.crash, prog, Client.prog] at hq
      · simp only [progP, Prog.crash, prog, Client.prog, Proc.view, Option.some.injEq, Prod.mk.injEq] at hq
        exact .inl hq.2.symm
    · simp at he
  | run i c _ _ he =>
    simp only [Prog.mach] at he
    cases hp : mm.pc i with
    | idle => simp [hp] at he
    | done _ _ => simp [hp] at he
    | ret op r =>
      simp only [hp, Option.some.injEq, Prod.mk.injEq] at he
      obtain ⟨_, rfl⟩ := he
      refine move _ _ _ rfl (by simp) (fun op' b z hD hn hq => ?_)
      exact h5 i op' b z hD hn (by simpa [Conf.view, hp, Proc.view] using hq)
    | «at» op s =>
      simp only [hp] at he
      have hv : mm.view i = some (op, .inl s) := by simp [Conf.view, hp, Proc.view]
      cases hst : (progP m U).step mm.g i op s c with
      | none => simp [hst] at he
      | some y =>
        obtain ⟨g', y⟩ := y
        -- what the step is in the program without panics
        have main : g' x = mm.g x ∧ (∀ tr o p, y = .inl (.inner tr (x, o) p) → p = .start ∨ p = .lock) ∧
            ∀ b, ¬ D i → m.next op ([] : Tr V) = .inl (x, b) → ∃ p, y = .inl (.inner [] (x, b) p) := by
          have first : ∀ b, ¬ D i → m.next op ([] : Tr V) = .inl (x, b) → s = .between [] ∨ ∃ p, s = .inner [] (x, b) p := by
            intro b hD hn
            simpa using h5 i op b _ hD hn hv
          have at_x : ∀ tr o p, s = .inner tr (x, o) p → g' x = mm.g x ∧ y = .inl (.inner tr (x, o) .lock) := by
            rintro tr o p rfl
            rcases h4 i op tr o p hp with rfl | rfl
            · have hx : MapConc.startStep (mm.g x) o = .inl .lock := by cases o <;> simp [MapConc.startStep, h2, h3]
              have hz : MapConc.prog.step (mm.g x) (Nat.pair i tr.length) o .start = fun _ => some (mm.g x, .inl .lock) := by
                funext c'; simp [MapConc.prog, MapConc.step, hx]
              have hq : panicAt U op (.inner tr (x, o) .start) = false := by simp [panicAt, inside]
              simp only [progP, Prog.crash, hq, prog, Client.prog, hz] at hst
              simp [Conc.lift] at hst
              exact ⟨by rw [← hst.1, upd_same], hst.2.symm⟩
            · have hz : MapConc.prog.step (mm.g x) (Nat.pair i tr.length) o .lock = fun _ => none := by
                funext c'
                have hm : (mm.g x).mu.isSome = true := Option.isSome_iff_ne_none.mpr h1
                simp [MapConc.prog, MapConc.step, hm]
              have hq : panicAt U op (.inner tr (x, o) .lock) = false := by simp [panicAt, inside]
              simp only [progP, Prog.crash, hq, prog, Client.prog, hz] at hst
              simp [Conc.lift] at hst
          by_cases hx : ∃ tr o p, s = .inner tr (x, o) p
          · obtain ⟨tr, o, p, rfl⟩ := hx
            obtain ⟨hgx, rfl⟩ := at_x tr o p rfl
            refine ⟨hgx, fun tr' o' p' e => ?_, fun b hD hn => ?_⟩
            · simp only [Sum.inl.injEq, CPt.inner.injEq] at e; exact .inr e.2.2.symm
            · rcases first b hD hn with e | ⟨p', e⟩
              · simp at e
              · simp only [CPt.inner.injEq, Prod.mk.injEq, true_and] at e
                obtain ⟨rfl, rfl, _⟩ := e
                exact ⟨_, rfl⟩
          · rcases crash_cases hst with ⟨hB, rfl, rfl⟩ | ⟨c', w, hw, hxy⟩
            · refine ⟨rfl, by simp, fun b hD hn => ?_⟩
              rcases first b hD hn with rfl | ⟨p', rfl⟩
              · simp [panicAt] at hB
              · exact absurd ⟨_, _, _, rfl⟩ hx
            · cases s with
              | between tr =>
                simp only [prog, Client.prog, client] at hw
                cases hn' : m.next op tr with
                | inl o =>
                  simp only [hn', Option.some.injEq, Prod.mk.injEq] at hw
                  obtain ⟨rfl, rfl⟩ := hw
                  rcases hxy with ⟨s', e, rfl⟩ | ⟨r, e, _⟩
                  · simp only [Sum.inl.injEq] at e
                    subst e
                    refine ⟨rfl, fun tr' o' p' e => ?_, fun b hD hn => ?_⟩
                    · simp only [Sum.inl.injEq, CPt.inner.injEq] at e; exact .inl e.2.2.symm
                    · rcases first b hD hn with e | ⟨p', e⟩
                      · simp only [CPt.between.injEq] at e
                        subst e
                        rw [hn'] at hn
                        simp only [Sum.inl.injEq] at hn
                        rw [hn]; exact ⟨_, rfl⟩
                      · simp at e
                  · simp at e
                | inr r =>
                  simp only [hn', Option.some.injEq, Prod.mk.injEq] at hw
                  obtain ⟨rfl, rfl⟩ := hw
                  rcases hxy with ⟨s', e, rfl⟩ | ⟨r', e, rfl⟩
                  · simp at e
                  · refine ⟨rfl, by simp, fun b hD hn => ?_⟩
                    rcases first b hD hn with e | ⟨p', e⟩
                    · simp only [CPt.between.injEq] at e
                      subst e
                      rw [hn'] at hn; simp at hn
                    · simp at e
              | inner tr o p =>
                obtain ⟨y', o⟩ := o
                have hne : y' ≠ x := fun hc => hx ⟨tr, o, p, by rw [hc]⟩
                have hno : ∀ b, ¬ D i → m.next op ([] : Tr V) = .inl (x, b) → False := by
                  intro b hD hn
                  rcases first b hD hn with e | ⟨p', e⟩
                  · simp at e
                  · simp only [CPt.inner.injEq, Prod.mk.injEq] at e; exact hne e.2.1.1
                simp only [prog, Client.prog] at hw
                split at hw
                · simp at hw
                · simp only [Option.some.injEq, Prod.mk.injEq] at hw
                  obtain ⟨rfl, rfl⟩ := hw
                  rcases hxy with ⟨s', e, rfl⟩ | ⟨r', e, rfl⟩
                  · simp only [Sum.inl.injEq] at e
                    subst e
                    refine ⟨upd_ne _ _ (Ne.symm hne), fun tr' o' p' e => ?_, fun b hD hn => (hno b hD hn).elim⟩
                    simp only [Sum.inl.injEq, CPt.inner.injEq, Prod.mk.injEq] at e
                    exact absurd e.2.1.1 hne
                  · simp at e
                · simp only [Option.some.injEq, Prod.mk.injEq] at hw
                  obtain ⟨rfl, rfl⟩ := hw
                  rcases hxy with ⟨s', e, rfl⟩ | ⟨r', e, rfl⟩
                  · simp only [Sum.inl.injEq] at e
                    subst e
                    exact ⟨upd_ne _ _ (Ne.symm hne), by simp, fun b hD hn => (hno b hD hn).elim⟩
                  · simp at e
        obtain ⟨e1, e2, e3⟩ := main
        cases y with
        | inl s' =>
          simp only [hst, Option.some.injEq, Prod.mk.injEq] at he
          obtain ⟨_, rfl⟩ := he
          refine move _ _ _ e1 (fun op' tr o p hq => ?_) (fun op' b z hD hn hq => ?_)
          · simp only [Proc.at.injEq] at hq; exact e2 tr o p (by rw [hq.2])
          · simp only [Proc.view, Option.some.injEq, Prod.mk.injEq] at hq
            obtain ⟨rfl, rfl⟩ := hq
            exact .inr (e3 b hD hn)
        | inr r =>
          simp only [hst, Option.some.injEq, Prod.mk.injEq] at he
          obtain ⟨_, rfl⟩ := he
          refine move _ _ _ e1 (by simp) (fun op' b z hD hn hq => ?_)
          simp only [Proc.view, Option.some.injEq, Prod.mk.injEq] at hq
          obtain ⟨rfl, rfl⟩ := hq
          obtain ⟨p, hc⟩ := e3 b hD hn
          simp at hc

/-- No call that uses the shard first returns any more. -/
theorem Dead.forever {x : Nat} {D : Nat → Prop} {mm mm' : CfP V} {H H' : List (Ev (SOp V) (Option (SRes V)))} (h : (progP m U).mach.Exec mm H)
    (hd : Dead m x D mm) (ho : (progP m U).mach.Onward mm H mm' H') {i : Nat} {op : SOp V} {b : BOp V} {r : Option (SRes V)} (hD : ¬ D i)
    (hn : m.next op ([] : Tr V) = .inl (x, b)) (hi : Ev.inv i op ∈ H') : Ev.ret i r ∉ H' := by
  obtain ⟨h1, h2⟩ := ho.keeps (Q := Dead m x D) (fun _ _ _ _ _ hq hs => hq.keeps hs) h hd
  intro hr
  have := h2.2.2.2.2 i op b _ hD hn ((progP m U).ret_view h1 hi hr)
  simp at this

end Verif.XSync.SharedConc

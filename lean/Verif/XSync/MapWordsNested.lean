import Verif.XSync.MapWordsEnds
import Verif.XSync.MapNestedProps
/-!
# C139: user functions of `xsync.Map` that make calls on the map, `Clear` included

`NExec progW (fnsW U)` are the executions in which the functions given to `Range`, `ComputeIfAbsent` and `ComputeIfPresent` make the calls that
`U` says, at any depth, on any number of goroutines. These calls may be `Clear`s, and others may run `Clear` at any time. A call that overlaps a
`Clear` may panic (C24): the function that has made it sees the result `panic`, that is, it recovers the panic and goes on.
-/
namespace Verif.XSync.MapWords
open Verif.Conc Verif.Go Verif.XSync.MapConc

variable {K V : Type}

/-- What the user functions do, as `MapConc.Users`; the calls they make may be calls of `Clear`. -/
abbrev UsersW (K V : Type) := Op K V → K → Option V → Nat → List ((Op K V ⊕ ClearOp) × Res K V) → Option (Op K V ⊕ ClearOp)

/-- The user functions, as functions of the point of the call that calls them: map.go:294, 314, 367, 476. `Clear` calls none (map.go:418-425). -/
def fnsW (U : UsersW K V) : Fns (Op K V ⊕ ClearOp) (Res K V) (PtW K V) := fun o s tr => match o, s with
  | .inl op, .pt s => match inside op s with
    | some (k, v, n) => U op k v n tr
    | none => none
  | _, _ => none

/-- Only the functions of `Range` make calls on the map. -/
def RangeOnlyW (U : UsersW K V) : Prop := ∀ op k v n tr o, U op k v n tr = some o → ∃ f, op = .range f

/-- No function makes calls forever. -/
def FiniteW (U : UsersW K V) : Prop := ∀ op k v n, WellFounded fun tr' tr => ∃ o r, U op k v n tr = some o ∧ tr' = tr ++ [(o, r)]

/-- The depth of nested calls is limited. -/
def DepthW (U : UsersW K V) (rank : Op K V ⊕ ClearOp → Nat) : Prop := ∀ op k v n tr o, U op k v n tr = some o → rank o < rank (.inl op)

theorem fnsW_some {U : UsersW K V} {o o' : Op K V ⊕ ClearOp} {s : PtW K V} {tr : List ((Op K V ⊕ ClearOp) × Res K V)} (h : fnsW U o s tr = some o') :
    ∃ op t k v n, o = .inl op ∧ s = .pt t ∧ inside op t = some (k, v, n) ∧ U op k v n tr = some o' := by
  cases o with
  | inr _ => simp [fnsW] at h
  | inl op =>
    cases s with
    | pt t =>
      simp only [fnsW] at h
      split at h
      · rename_i k v n hi; exact ⟨op, t, k, v, n, rfl, rfl, hi, h⟩
      · simp at h
    | _ => simp [fnsW] at h

theorem fnsW_wf {U : UsersW K V} (hU : FiniteW U) (o : Op K V ⊕ ClearOp) (s : PtW K V) : WellFounded (Longer (fnsW U) o s) := by
  by_cases hi : ∃ op t k v n, o = .inl op ∧ s = .pt t ∧ inside op t = some (k, v, n)
  · obtain ⟨op, t, k, v, n, rfl, rfl, hi⟩ := hi
    refine Subrelation.wf ?_ (hU op k v n)
    rintro tr' tr ⟨o', r, h1, h2⟩
    simp only [fnsW, hi] at h1
    exact ⟨o', r, h1, h2⟩
  · refine ⟨fun tr => ⟨_, ?_⟩⟩
    rintro tr' ⟨o', r, h1, _⟩
    obtain ⟨op, t, k, v, n, h1, h2, h3, _⟩ := fnsW_some h1
    exact absurd ⟨op, t, k, v, n, h1, h2, h3⟩ hi

variable [DecidableEq K] [DecidableEq V]

/-! ## Executions end -/

/-- Proof only: a bound on the user functions that a call still calls. -/
def nwW (_ : Op K V ⊕ ClearOp) : PtW K V → Nat × Nat
  | .typ | .data => (1, 1)
  | .pt s | .first s | .last s => nw s
  | .cl _ => (0, 0)

omit [DecidableEq K] [DecidableEq V] in
theorem nwW_up (o : Op K V ⊕ ClearOp) (x : Pt K V ⊕ Res K V) : (up x).elim (nwW o) (fun _ => (0, 0)) = x.elim nw fun _ => (0, 0) := by
  cases x <;> rfl

theorem fewerW {M M' : GW K V} {i : Nat} {o : Op K V ⊕ ClearOp} {s : PtW K V} {c : Nat} {x : PtW K V ⊕ Res K V} (hs : stepW M i o s c = some (M', x)) :
    lexLt (x.elim (nwW o) fun _ => (0, 0)) (nwW o s) ∨ (x.elim (nwW o) fun _ => (0, 0)) = nwW o s ∧ ∀ t, s = .pt t → t.quiet = true := by
  have below : ∀ {t : Pt K V} {a : Nat × Nat}, Below t a → lexLt a (nw t) ∨ a = nw t ∧ ∀ t', PtW.pt t = .pt t' → t'.quiet = true := fun h =>
    h.imp id fun h => ⟨h.1, by rintro _ ⟨⟩; exact h.2⟩
  have start : ∀ (g : G K V) op, lexLt ((up (startStep g op)).elim (nwW o) fun _ => (0, 0)) (1, 1) ∨
      ((up (startStep g op)).elim (nwW o) fun _ => (0, 0)) = (1, 1) := by
    intro g op
    rw [nwW_up]
    exact (fewer (g := g) (i := 0) (op := op) (s := .start) (c := 0) (g' := g) (x := startStep g op) rfl).imp id And.left
  cases o with
  | inr y =>
    cases s with
    | cl p =>
      right
      refine ⟨?_, by simp⟩
      cases p <;> simp only [stepW, clearW] at hs <;> (try split at hs) <;> simp only [Option.some.injEq, Prod.mk.injEq, reduceCtorEq] at hs <;>
        obtain ⟨_, rfl⟩ := hs <;> rfl
    | _ => simp [stepW] at hs
  | inl op =>
    cases s with
    | cl p => simp [stepW, opW] at hs
    | typ =>
      simp only [stepW, opW, Option.some.injEq, Prod.mk.injEq] at hs
      obtain ⟨_, rfl⟩ := hs
      split
      · exact .inr ⟨rfl, by simp⟩
      · exact (start _ op).imp id fun h => ⟨h, by simp⟩
    | data =>
      simp only [stepW, opW] at hs
      split at hs <;> simp only [Option.some.injEq, Prod.mk.injEq] at hs <;> obtain ⟨_, rfl⟩ := hs
      · left; simp [nwW, lex_iff]
      · exact (start _ op).imp id fun h => ⟨h, by simp⟩
    | first t =>
      simp only [stepW, opW] at hs
      split at hs <;> simp only [Option.some.injEq, Prod.mk.injEq, reduceCtorEq] at hs
      obtain ⟨_, rfl⟩ := hs
      exact .inr ⟨rfl, by simp⟩
    | last t =>
      simp only [stepW, opW] at hs
      split at hs <;> simp only [Option.some.injEq, Prod.mk.injEq, reduceCtorEq] at hs
      rename_i hst
      obtain ⟨_, rfl⟩ := hs
      rw [nwW_up]
      exact (fewer hst).imp id fun h => ⟨h.1, by simp⟩
    | pt t =>
      simp only [stepW, opW] at hs
      split at hs
      · rename_i hq
        have hq : ∀ t', PtW.pt t = .pt t' → t'.quiet = true := by
          rintro _ ⟨⟩
          cases t <;> simp [stores] at hq <;> rfl
        split at hs
        · simp only [Option.some.injEq, Prod.mk.injEq] at hs
          obtain ⟨_, rfl⟩ := hs
          exact .inr ⟨rfl, hq⟩
        · simp only [Option.some.injEq, Prod.mk.injEq] at hs
          obtain ⟨_, rfl⟩ := hs
          exact .inr ⟨rfl, hq⟩
        · split at hs <;> simp only [Option.some.injEq, Prod.mk.injEq, reduceCtorEq] at hs
          rename_i hst
          obtain ⟨_, rfl⟩ := hs
          rw [nwW_up]
          exact below (fewer hst)
      · split at hs
        · rename_i hq
          simp only [Option.some.injEq, Prod.mk.injEq] at hs
          obtain ⟨_, rfl⟩ := hs
          have ht : t = .locked := by cases t <;> simp [reloads] at hq; rfl
          subst ht
          left; simp [nwW, nw, lex_iff]
        · split at hs <;> simp only [Option.some.injEq, Prod.mk.injEq, reduceCtorEq] at hs
          rename_i hst
          obtain ⟨_, rfl⟩ := hs
          rw [nwW_up]
          exact below (fewer hst)

theorem finitaryW {U : UsersW K V} {rank : Op K V ⊕ ClearOp → Nat} (hd : DepthW U rank) (hf : FiniteW U) : Finitary progW (fnsW U) rank nwW where
  rank h := by obtain ⟨op, t, k, v, n, rfl, rfl, _, h'⟩ := fnsW_some h; exact hd _ _ _ _ _ _ h'
  fns := fnsW_wf hf
  down {m H i o s c M' x} _ _ hs := by
    refine (fewerW hs).imp id fun h => ⟨h.1, ?_⟩
    cases hF : fnsW U o s [] with
    | none => rfl
    | some o' =>
      obtain ⟨op, t, k, v, n, rfl, rfl, hi, _⟩ := fnsW_some hF
      rw [inside_quiet op (h.2 t rfl)] at hi
      simp at hi

/-! ## No deadlock -/

/-- Proof only: the level of the only lock, at the points at which a call holds it. -/
def ownW (_ : Op K V ⊕ ClearOp) : PtW K V → Option Nat
  | .pt s => if s.holds then some 0 else none
  | .first _ | .last _ => some 0
  | .cl .lock => none
  | .cl _ => some 0
  | _ => none

omit [DecidableEq V] in
/-- The holder of the lock is where a call holds it. -/
theorem owns {M : GW K V} {v : VwW K V} {n : Nat} {W : Nat → World K V} (h : Phys M v n W) {i : Nat} {o : Op K V ⊕ ClearOp} {s : PtW K V}
    (hm : M.g.mu = some i) (hv : v i = some (o, .inl s)) : ownW o s = some 0 := by
  have hc := h.calls i
  rw [hv] at hc
  cases o with
  | inr x =>
    cases s with
    | cl p =>
      have := (h.cmu i x p hv).2 hm
      cases p <;> first | rfl | exact absurd rfl this
    | _ => exact hc.elim
  | inl op =>
    have none : (∀ w, w ≤ n → (W w).v i = none) → False := fun hn =>
      h.nomu hv (fun o s hs => by rw [hn n (Nat.le_refl _)] at hs; simp at hs) hm
    have away : Away (W n) i op → False := fun ha => h.nomu hv (fun o s hs => by
      rcases ha with h | h <;> rw [h] at hs <;> simp at hs
      rw [← hs.2]; rfl) hm
    cases s with
    | typ => exact (none hc).elim
    | data => exact (none hc).elim
    | cl p => exact hc.elim
    | first s => rfl
    | last s => rfl
    | pt s =>
      by_cases hl : s = .lock
      · subst hl; exact (away (hc n (Nat.le_refl _))).elim
      · obtain ⟨_, w, h1, h2, _, h4⟩ := (callRel_pt hl).1 hc
        by_cases hw : w = n
        · subst hw
          refine Classical.byContradiction fun hno => h.nomu hv (fun o s' hs => ?_) hm
          rw [h2] at hs
          simp only [Option.some.injEq, Prod.mk.injEq, Sum.inl.injEq] at hs
          rw [← hs.2]
          cases hh : s.holds with
          | false => rfl
          | true => simp [ownW, hh] at hno
        · exact (away (h4 n (Nat.le_refl _) fun e => hw e.symm)).elim

/-- A call makes a step, unless it waits for the lock. -/
theorem enabledFree {M : GW K V} {v : VwW K V} {n : Nat} {W : Nat → World K V} (h : Phys M v n W) {i : Nat} {o : Op K V ⊕ ClearOp} {s : PtW K V}
    (hv : v i = some (o, .inl s)) (hm : M.g.mu ≠ none → s ≠ .pt .lock ∧ s ≠ .cl .lock) : ∃ y, stepW M i o s 0 = some y := by
  by_cases hmu : M.g.mu = none
  · exact enabledW h hv (.inl hmu)
  obtain ⟨h1, h2⟩ := hm hmu
  have hc := h.calls i
  rw [hv] at hc
  have loc : ∀ op y b t, Loc W n i op (.inl y) b → (y = .lock → t.mu = none) → ∃ z, step t i op y 0 = some z := by
    rintro op y b t ⟨w, h1, h2, _⟩ ht
    exact enabled_any t (h.ok w h1).inv h2 ht
  cases o with
  | inl op =>
    cases s with
    | typ => exact ⟨_, rfl⟩
    | data => simp only [stepW, opW]; split <;> exact ⟨_, rfl⟩
    | cl p => exact hc.elim
    | first s =>
      obtain ⟨rfl, hc⟩ := hc
      obtain ⟨z, hz⟩ := loc _ _ _ (M.with M.val) hc (by simp)
      simp only [stepW, opW, hz]; exact ⟨_, rfl⟩
    | last s =>
      obtain ⟨rfl, hc⟩ := hc
      obtain ⟨z, hz⟩ := loc _ _ _ (M.with M.val) hc (by simp)
      simp only [stepW, opW, hz]; exact ⟨_, rfl⟩
    | pt s =>
      have hl : s ≠ .lock := fun e => h1 (by rw [e])
      obtain ⟨z, hz⟩ := loc _ _ _ (M.with M.val) ((callRel_pt hl).1 hc).2 (fun e => absurd e hl)
      simp only [stepW, opW, hz]
      (repeat' split) <;> exact ⟨_, rfl⟩
  | inr x =>
    cases s with
    | cl p =>
      cases p with
      | lock => exact absurd rfl h2
      | read => exact ⟨_, rfl⟩
      | _ => exact ⟨_, rfl⟩
    | _ => exact hc.elim

/-- A call makes a step, or waits for the lock, which another call holds. -/
theorem waitsW {m : Conf (GW K V) (Op K V ⊕ ClearOp) (Res K V) (PtW K V)} {H : List (Ev (Op K V ⊕ ClearOp) (Res K V))} (h : progW.mach.Exec m H) {i : Nat}
    {o : Op K V ⊕ ClearOp} {s : PtW K V} (hp : m.pc i = .at o s) :
    (∃ y, stepW m.g i o s 0 = some y) ∨ ownW o s = none ∧ ∃ l o' s', m.pc l = .at o' s' ∧ ownW o' s' = some 0 := by
  obtain ⟨n, W, Hp, cl, hP, _, _⟩ := rel_exec h
  have hv : m.view i = some (o, .inl s) := by simp [Conf.view, hp, Proc.view]
  by_cases hw : (s = .pt .lock ∨ s = .cl .lock) ∧ m.g.g.mu ≠ none
  · obtain ⟨hs, hmu⟩ := hw
    obtain ⟨l, hl⟩ := Option.ne_none_iff_exists'.mp hmu
    obtain ⟨o', s', h1⟩ := hP.held l hl
    refine .inr ⟨?_, l, o', s', ?_, owns hP hl h1⟩
    · rcases hs with rfl | rfl <;> rfl
    · simp only [Conf.view] at h1
      cases hq : m.pc l <;> simp [hq, Proc.view] at h1
      rw [h1.1, h1.2]
  · exact .inl (enabledFree hP hv fun hm => ⟨fun e => hw ⟨.inl e, hm⟩, fun e => hw ⟨.inr e, hm⟩⟩)

theorem levelsW {U : UsersW K V} (hU : RangeOnlyW U) : Levels progW (fnsW U) ownW (fun _ => 0) 1 where
  waits {m H} h {i o s} hp := by
    rcases waitsW h hp with ⟨⟨M', x⟩, hx⟩ | ⟨h1, l, o', s', h2, h3⟩
    · have hx' : (progW (K := K) (V := V)).step m.g i o s 0 = some (M', x) := hx
      cases x with
      | inl s' => exact .inl ⟨⟨M', upd m.pc i (.at o s')⟩, by simp [Prog.mach, hp, hx']⟩
      | inr r => exact .inl ⟨⟨M', upd m.pc i (.ret o r)⟩, by simp [Prog.mach, hp, hx']⟩
    · exact .inr ⟨h1, 0, l, o', s', Nat.le_refl _, by omega, h2, h3⟩
  above {m H} _ {i o s} _ {tr o'} h := by
    obtain ⟨op, t, k, v, n, rfl, rfl, hi, h'⟩ := fnsW_some h
    obtain ⟨f, rfl⟩ := hU _ _ _ _ _ _ h'
    refine ⟨Nat.le_refl _, fun l hl => ?_⟩
    cases t <;> simp [inside] at hi
    simp [ownW, Pt.holds] at hl

/-! ## A lock that is never unlocked -/

/-- A step at a point at which the lock is not held leaves a lock that is held alone. -/
theorem step_mu {g : G K V} {i l : Nat} {o : Op K V} {s : Pt K V} {c : Nat} {g' : G K V} {x : Pt K V ⊕ Res K V} (hmu : g.mu = some i) (hh : s.holds ≠ true)
    (hs : step g l o s c = some (g', x)) : g'.mu = some i := by
  cases s <;> simp only [Pt.holds, not_true_eq_false, bne_iff_ne, ne_eq, not_not] at hh
  all_goals (unfold step at hs; simp only [G.setP] at hs; grind)

/-- While a call holds the lock, the others leave it alone. -/
theorem mu_staysW {m : Conf (GW K V) (Op K V ⊕ ClearOp) (Res K V) (PtW K V)} {H : List (Ev (Op K V ⊕ ClearOp) (Res K V))} (h : progW.mach.Exec m H) {i l : Nat}
    {o : Op K V ⊕ ClearOp} {s : PtW K V} {c : Nat} {M' : GW K V} {x : PtW K V ⊕ Res K V} (hmu : m.g.g.mu = some i) (hp : m.pc l = .at o s) (hl : l ≠ i)
    (hs : stepW m.g l o s c = some (M', x)) : M'.g.mu = some i := by
  obtain ⟨n, W, Hp, cl, hP, _, _⟩ := rel_exec h
  have hv : m.view l = some (o, .inl s) := by simp [Conf.view, hp, Proc.view]
  have hc := hP.calls l
  rw [hv] at hc
  have hno : m.g.g.mu ≠ some l := by rw [hmu]; simpa using fun e => hl e.symm
  have hmuW : ∀ r, (m.g.with r).mu = some i := fun r => hmu
  -- a call that is at a point at which it holds the lock in the current world holds the lock
  have out : ∀ op t, o = .inl op → Loc W n l op (.inl t) t.holds → t.holds ≠ true := by
    rintro op t rfl ⟨w, h1, h2, h3, _⟩ ht
    have hw := h3 ht
    subst hw
    exact hno ((hP.mu l).1 (((hP.ok w h1).inv.mu l op t h2).1 ht)).1
  cases o with
  | inr y =>
    cases s with
    | cl p =>
      have hpl : p = .lock := Classical.byContradiction fun hn => hno ((hP.cmu l y p hv).1 hn)
      subst hpl
      simp [stepW, clearW, hmu] at hs
    | _ => exact hc.elim
  | inl op =>
    cases s with
    | cl p => exact hc.elim
    | typ =>
      simp only [stepW, opW, Option.some.injEq, Prod.mk.injEq] at hs
      rw [← hs.1]; exact hmu
    | data =>
      simp only [stepW, opW] at hs
      split at hs <;> simp only [Option.some.injEq, Prod.mk.injEq] at hs <;> (rw [← hs.1]; exact hmu)
    | first t =>
      obtain ⟨rfl, hc⟩ := hc
      exact absurd rfl (out op _ rfl hc)
    | last t =>
      obtain ⟨rfl, hc⟩ := hc
      exact absurd rfl (out op _ rfl hc)
    | pt t =>
      have ht : t.holds ≠ true := by
        by_cases hl : t = .lock
        · subst hl; simp [Pt.holds]
        · exact out op t rfl ((callRel_pt hl).1 hc).2
      simp only [stepW, opW] at hs
      (repeat' split at hs) <;> simp only [Option.some.injEq, Prod.mk.injEq, reduceCtorEq] at hs <;> obtain ⟨rfl, -⟩ := hs
      all_goals first
        | exact hmu
        | (rename_i hst; exact step_mu (hmuW _) ht hst)

/-! ## C139 -/

section
variable {U : UsersW K V} {n : NConf (GW K V) (Op K V ⊕ ClearOp) (Res K V) (PtW K V)} {H : List (Ev (Op K V ⊕ ClearOp) (Res K V))}

/-- **C139.** Without the calls that panicked, and without `ComputeIfPresent` (C22), the calls, nested ones and `Clear`s included, take effect one
after the other, each of them while it runs, as on an ordinary map. -/
theorem C139_linearizable_partial (h : NExec progW (fnsW U) n H) (hno : ∀ i k f, Ev.inv i (.inl (.computeIfPresent k f)) ∉ H) : Linearizable strictSpecC (settled H) :=
  C118_linearizable h.flat hno

/-- **C139.** With `ComputeIfPresent`: there is a linearization of the calls that did not panic in which its function is applied to a value that the key had
during the call, before the replacement. What a `Range` promises holds of a `Range` whose function changes or clears the map. -/
theorem C139_observed (h : NExec progW (fnsW U) n H) : ∃ L st, Linearization mapSpecC (settled H) L st ∧
    (∀ i k f w v, Ev.inv i (.inl (.computeIfPresent k f)) ∈ H → Ev.ret i (.present (some (w, v))) ∈ H →
      ∃ n n' o r, L[n']? = some (i, o, r) ∧ During (settled H) L i n ∧ n ≤ n' ∧ st n k = some w) ∧
    ∀ i f l all, Ev.inv i (.inl (.range f)) ∈ H → Ev.ret i (.visited l all) ∈ H →
      (l.map (·.1)).Nodup ∧ (∀ k v, (k, v) ∈ l → ∃ n, During (settled H) L i n ∧ st n k = some v) ∧
      (all = true → ∀ k, (∀ n, During (settled H) L i n → st n k ≠ none) → ∃ v, (k, v) ∈ l) := C118_observed h.flat

/-- **C139.** Only calls that overlap a `Clear` can panic. -/
theorem C139_panics (h : NExec progW (fnsW U) n H) {i : Nat} (hi : Ev.ret i .panic ∈ H) :
    (∃ op, Ev.inv i (.inl op) ∈ H) ∧ ∃ j, Ev.inv j (.inr .clear) ∈ H ∧ ¬ Before H j i ∧ ¬ Before H i j := C118_panics h.flat hi

/-- **C139.** If every function makes finitely many calls and the depth of the nesting is limited, then no schedule runs on forever, unless
goroutines begin new calls. -/
theorem C139_ends {rank : Op K V ⊕ ClearOp → Nat} (hd : DepthW U rank) (hf : FiniteW U) (h : NExec progW (fnsW U) n H) : Acc (NMoves progW (fnsW U)) n :=
  h.ends (finitaryW hd hf) C118_ends

/-- **C139, the part that holds.** If only functions of `Range` make calls, every call returns or panics: where nothing moves, none is left. Missing:
the same with functions of `ComputeIfAbsent` and `ComputeIfPresent`, which is false (`C139_clear_refuted`). -/
theorem C139_returns_partial (hU : RangeOnlyW U) (h : NExec progW (fnsW U) n H) (hs : n.Stuck progW (fnsW U)) {i : Nat} {o : Op K V ⊕ ClearOp}
    (hi : Ev.inv i o ∈ H) : ∃ r, Ev.ret i r ∈ H :=
  h.all_returned (h.no_deadlock (levelsW hU) hs) hi

/-- A function that begins `Clear` while its own call holds the lock never returns. -/
theorem stuck_foreverW {n' : NConf (GW K V) (Op K V ⊕ ClearOp) (Res K V) (PtW K V)} {H' : List (Ev (Op K V ⊕ ClearOp) (Res K V))} (h : NExec progW (fnsW U) n H)
    {t i j : Nat} {tr tr' : List ((Op K V ⊕ ClearOp) × Res K V)} {rest : List (Conc.Frame (Op K V ⊕ ClearOp) (Res K V))} (hst : n.stack t = (j, tr) :: rest)
    (hm : (i, tr') ∈ rest) (hmu : n.m.g.g.mu = some i) (hp : n.m.pc j = .at (.inr .clear) (.cl .lock)) (hl : NLeads progW (fnsW U) n H n' H') (r : Res K V) :
    Ev.ret i r ∉ H' ∧ Ev.ret j r ∉ H' := by
  have := hl.still h (D := fun t' => t' = t) (Q := fun M => M.g.mu = some i) hmu
    (by
      rintro t' rfl
      exact ⟨j, tr, rest, .inr .clear, .cl .lock, hst, hp, rfl, fun M c hM => by simp [progW, stepW, clearW, hM]⟩)
    (by
      intro n₁ H₁ h₁ hS hq l o s c M' x hpl hno hx
      refine mu_staysW h₁.flat hq hpl (fun hli => ?_) hx
      subst hli
      exact hno t tr' rfl (by rw [(hS t rfl).1, hst]; exact List.mem_cons_of_mem _ hm))
  obtain ⟨_, W, Hp, cl, hP, _, _⟩ := rel_exec h.flat
  obtain ⟨o, s, h1⟩ := hP.held i hmu
  refine ⟨this.2.not_returned (hl.exec h) rfl (tr := tr') (by rw [hst]; exact List.mem_cons_of_mem _ hm) (fun o' r' hc => ?_) r,
    this.2.not_returned (hl.exec h) rfl (tr := tr) (by rw [hst]; simp) (fun o' r' hc => by rw [hp] at hc; simp at hc) r⟩
  simp [Conf.view, hc, Proc.view] at h1

end

/-! ## Concrete cases -/

/-- A function of `Range` calls `Clear` and then loads the key it was called with; the other functions make no calls. -/
def clears : UsersW Nat Nat := fun op k _ _ tr => match op, tr with
  | .range _, [] => some (.inr .clear)
  | .range _, [_] => some (.inl (.load k))
  | _, _ => none

/-- For the concrete cases beside the theorems. -/
def depthW : Op Nat Nat ⊕ ClearOp → Nat
  | .inl (.range _) => 1
  | _ => 0

theorem clears_some {op : Op Nat Nat} {o : Op Nat Nat ⊕ ClearOp} {k n : Nat} {v : Option Nat} {tr : List ((Op Nat Nat ⊕ ClearOp) × Res Nat Nat)}
    (h : clears op k v n tr = some o) : (∃ f, op = .range f) ∧ depthW o = 0 ∧ tr.length < 2 := by
  cases op <;> simp [clears] at h
  match tr, h with
  | [], h => simp at h; subst h; simp [depthW]
  | [_], h => simp at h; subst h; simp [depthW]
  | _ :: _ :: _, h => simp at h

theorem clears_depth : DepthW clears depthW := by
  intro op k v n tr o h
  obtain ⟨⟨f, rfl⟩, h2, _⟩ := clears_some h
  rw [h2]; simp [depthW]

theorem clears_range : RangeOnlyW clears := fun _ _ _ _ _ _ h => (clears_some h).1

theorem clears_finite : FiniteW clears := by
  intro op k v n
  refine Subrelation.wf (r := InvImage (· < ·) fun tr => 2 - tr.length) ?_ (InvImage.wf _ Nat.lt_wfRel.wf)
  rintro tr' tr ⟨o, r, h, rfl⟩
  have := (clears_some h).2.2
  simp only [InvImage, List.length_append, List.length_singleton]
  omega

/-- For the concrete cases beside the theorems. -/
def nrunsW (n t : Nat) : List (NMove (Op Nat Nat ⊕ ClearOp)) := List.replicate n (.run t 0)

/-- The function of a `Range` calls `Clear`; a `Load` of another goroutine that overlaps it panics; the function then finds nothing; a `Delete` has
been begun. -/
theorem demoClears : ∃ n : NConf (GW Nat Nat) _ _ _, NExec progW (fnsW clears) n [.inv 1 (.inl (.store 0 5)), .ret 1 .unit,
    .inv 2 (.inl (.range fun _ _ _ => true)), .inv 6 (.inl (.load 0)), .inv 3 (.inr .clear), .ret 6 .panic, .ret 3 .unit, .inv 4 (.inl (.load 0)), .ret 4 (.value none),
    .ret 2 (.visited [(0, 5)] true), .inv 5 (.inl (.delete 0))] ∧ n.stack 8 = [(5, [])] :=
  exists_nexec ([.start 7 1 (.inl (.store 0 5))] ++ nrunsW 11 7 ++ [.start 7 2 (.inl (.range fun _ _ _ => true))] ++ nrunsW 7 7 ++
    [.start 9 6 (.inl (.load 0)), .run 9 0, .nest 7 3] ++ nrunsW 3 7 ++ nrunsW 2 9 ++ nrunsW 4 7 ++ [.nest 7 4] ++ nrunsW 5 7 ++ [.start 8 5 (.inl (.delete 0))]) _ _
    (by exact And.intro rfl rfl)

example := demoClears.elim fun _ h => C139_linearizable_partial h.1 (by simp)

example := demoClears.elim fun _ h => C139_observed h.1

example := demoClears.elim fun _ h => C139_panics (i := 6) h.1 (by simp)

example := demoClears.imp fun _ h => C139_ends clears_depth clears_finite h.1

/-- From there an execution leads to a state in which nothing moves, and `Delete` has returned. -/
example : ∃ n H r, NExec progW (fnsW clears) n H ∧ n.Stuck progW (fnsW clears) ∧ Ev.ret 5 r ∈ H := by
  obtain ⟨n, h, _⟩ := demoClears
  obtain ⟨n', H', h1, h2⟩ := exists_stuck (C139_ends clears_depth clears_finite h) _
  have h3 := h1.exec h
  obtain ⟨r, hr⟩ := C139_returns_partial clears_range h3 h2 (i := 5) (o := .inl (.delete 0)) (by simp)
  exact ⟨n', _, r, h3, h2, hr⟩

/-- Every function calls `Clear`, once. -/
def clearOnce : UsersW Nat Nat := fun _ _ _ _ tr => match tr with
  | [] => some (.inr .clear)
  | _ => none

/-- **C139, the refutation.** If the function of `ComputeIfAbsent` calls `Clear`, neither call returns, however the execution continues. -/
theorem C139_clear_refuted : ∃ n H, NExec progW (fnsW clearOnce) n H ∧ H = [.inv 1 (.inl (.computeIfAbsent 0 fun _ _ => 5)), .inv 2 (.inr .clear)] ∧
    ∀ n' H', NLeads progW (fnsW clearOnce) n H n' H' → ∀ r, Ev.ret 1 r ∉ H' ∧ Ev.ret 2 r ∉ H' := by
  have : ∃ n : NConf (GW Nat Nat) _ _ _, NExec progW (fnsW clearOnce) n [.inv 1 (.inl (.computeIfAbsent 0 fun _ _ => 5)), .inv 2 (.inr .clear)] ∧
      n.stack 7 = [(2, []), (1, [])] ∧ n.m.g.g.mu = some 1 ∧ n.m.pc 2 = .at (.inr .clear) (.cl .lock) :=
    exists_nexec ([.start 7 1 (.inl (.computeIfAbsent 0 fun _ _ => 5))] ++ nrunsW 8 7 ++ [.nest 7 2]) _ _
      (by exact And.intro rfl (And.intro rfl (And.intro rfl rfl)))
  obtain ⟨n, h1, h2, h3, h4⟩ := this
  exact ⟨n, _, h1, rfl, fun n' H' hl r => stuck_foreverW h1 h2 (List.mem_singleton.mpr rfl) h3 h4 hl r⟩

end Verif.XSync.MapWords

import Verif.XSync.SharedWordsEnds
import Verif.XSync.SharedNestedProps
import Verif.XSync.MapWordsNested
/-!
# C141: user functions of `xsync.SharedMap` that make calls on it, `Clear` included

`NExec (progSW m) (fnsSW U)` are the executions in which the functions given to `Range`, `ComputeIfAbsent` and `ComputeIfPresent` make the calls
that `U` says, at any depth, on any number of goroutines. These calls may be `Clear`s, and others may run `Clear` at any time. As in
`MapWordsNested.lean` a function sees the panic of a call that it has made as its result.
-/
namespace Verif.XSync.SharedConc
open Verif.Conc Verif.Go
open Verif.XSync.MapConc (Pt inside ClearOp)
open Verif.XSync.Shared (requested)
open Verif.XSync.MapWords (GW PtW progW nwW ownW)

variable {V : Type}

/-- What the user functions do, as `Users`; the calls they make may be calls of `Clear`. -/
abbrev UsersSW (V : Type) := SOp V → Bytes → Option V → Nat → List (SO V × SRes V) → Option (SO V)

/-- The functions run inside the calls of the shards: shared_map.go:71, 80, 138. `Clear` calls none (shared_map.go:164-168). -/
def fnsSW (U : UsersSW V) : Fns (SO V) (SRes V) (CPt (BO V) (BRes V) (PtW Bytes V))
  | .inl op, .inner tr (_, .inl b) (.pt s), l => match inside b s with
    | some (k, v, n) => U op k v ((visits tr).length + n) l
    | none => none
  | _, _, _ => none

/-- No function makes calls forever. -/
def FiniteSW (U : UsersSW V) : Prop := ∀ op k v n, WellFounded fun tr' tr => ∃ o r, U op k v n tr = some o ∧ tr' = tr ++ [(o, r)]

/-- The depth of nested calls is limited. -/
def DepthSW (U : UsersSW V) (rank : SO V → Nat) : Prop := ∀ op k v n tr o, U op k v n tr = some o → rank o < rank (.inl op)

/-- The shards that an operation uses; `Clear` uses all. -/
def TouchesW (m : Shape) (o : SO V) (x : Nat) : Prop := match o with
  | .inl op => Touches m op x
  | .inr _ => x < m.len

/-- The functions of `ComputeIfAbsent` and `ComputeIfPresent` use only shards that come later than the shard of the key, in some order of the
shards. The functions of `Range` may do anything. -/
def OrderedW (m : Shape) (pos : Nat → Nat) (U : UsersSW V) : Prop := ∀ op k₀ k v n tr o x, computes op = some k₀ → U op k v n tr = some o →
  TouchesW m o x → pos (m.index k₀) < pos x

theorem fnsSW_some {U : UsersSW V} {o o' : SO V} {s : CPt (BO V) (BRes V) (PtW Bytes V)} {l : List (SO V × SRes V)} (h : fnsSW U o s l = some o') :
    ∃ op tr x b p k v n, o = .inl op ∧ s = .inner tr (x, .inl b) (.pt p) ∧ inside b p = some (k, v, n) ∧ U op k v ((visits tr).length + n) l = some o' := by
  unfold fnsSW at h
  split at h
  · split at h
    · rename_i op tr x b p _ k v n hi; exact ⟨op, tr, x, b, p, k, v, n, rfl, rfl, hi, h⟩
    · simp at h
  · simp at h

theorem fnsSW_wf {U : UsersSW V} (hU : FiniteSW U) (o : SO V) (s : CPt (BO V) (BRes V) (PtW Bytes V)) : WellFounded (Longer (fnsSW U) o s) := by
  by_cases hi : ∃ op tr x b p k v n, o = .inl op ∧ s = .inner tr (x, .inl b) (.pt p) ∧ inside b p = some (k, v, n)
  · obtain ⟨op, tr, x, b, p, k, v, n, rfl, rfl, hi⟩ := hi
    refine Subrelation.wf ?_ (hU op k v ((visits tr).length + n))
    rintro l' l ⟨o', r, h1, h2⟩
    simp only [fnsSW, hi] at h1
    exact ⟨o', r, h1, h2⟩
  · refine ⟨fun l => ⟨_, ?_⟩⟩
    rintro l' ⟨o', r, h1, _⟩
    obtain ⟨op, tr, x, b, p, k, v, n, h1, h2, h3, _⟩ := fnsSW_some h1
    exact absurd ⟨op, tr, x, b, p, k, v, n, h1, h2, h3⟩ hi

variable [DecidableEq V] {m : Shape} {mm : CfW V} {H : List (Ev (SO V) (SRes V))}

/-- The current call of a shard. -/
theorem currentW (h : (progSW m).mach.Exec mm H) {i : Nat} {o : SO V} {tr : TrW V} {so : Nat × BO V} {s : PtW Bytes V} (hp : mm.pc i = .at o (.inner tr so s)) :
    m.nextW o tr = .inl so := by
  obtain ⟨mE, E, hE, hgE, hc, hI⟩ := (clientW m).decompose progW (g₀ := fun _ => progW.init) h
  have := hc i
  rw [hp] at this
  exact this.2.1

/-- Proof only: a bound on the user functions a call still calls. -/
def snwW (m : Shape) (o : SO V) : CPt (BO V) (BRes V) (PtW Bytes V) → Nat × Nat
  | .between tr => (2 * (partsW m o - tr.length), 2)
  | .inner tr so s => (2 * (partsW m o - tr.length) - 1 + (nwW so.2 s).1, (nwW so.2 s).2)

theorem finitarySW {U : UsersSW V} {rank : SO V → Nat} (hd : DepthSW U rank) (hf : FiniteSW U) : Finitary (progSW m) (fnsSW U) rank (snwW m) where
  rank h := by obtain ⟨_, _, _, _, _, k, v, n, rfl, _, _, h'⟩ := fnsSW_some h; exact hd _ _ _ _ _ _ h'
  fns := fnsSW_wf hf
  down {mm H i o s c g' x} h hp hs := by
    cases s with
    | between tr =>
      simp only [progSW, Client.prog, clientW] at hs
      split at hs <;> simp only [Option.some.injEq, Prod.mk.injEq] at hs <;> obtain ⟨rfl, rfl⟩ := hs <;> left
      · rename_i so hn
        have := partW_lt (nextW_inl hn)
        obtain ⟨y, so⟩ := so
        cases so <;> simp only [Sum.elim_inl, snwW, progW, nwW, MapConc.lex_iff] <;> omega
      · simp only [Sum.elim_inr, snwW, MapConc.lex_iff]
        omega
    | inner tr so p =>
      have hlt := partW_lt (nextW_inl (currentW h hp))
      simp only [progSW, Client.prog] at hs
      split at hs
      · simp at hs
      · rename_i g₁ p' hx
        simp only [Option.some.injEq, Prod.mk.injEq] at hs
        obtain ⟨rfl, rfl⟩ := hs
        rcases MapWords.fewerW hx with h | ⟨h, hq⟩
        · left
          simp only [Sum.elim_inl, snwW, MapConc.lex_iff] at h ⊢
          omega
        · right
          simp only [Sum.elim_inl] at h
          refine ⟨by simp only [Sum.elim_inl, snwW, h], ?_⟩
          cases hF : fnsSW U o (.inner tr so p) [] with
          | none => rfl
          | some o' =>
            obtain ⟨op, tr', y, b, t, k, v, n, rfl, e, hi, _⟩ := fnsSW_some hF
            simp only [CPt.inner.injEq] at e
            obtain ⟨rfl, rfl, rfl⟩ := e
            rw [MapConc.inside_quiet b (hq t rfl)] at hi
            simp at hi
      · simp only [Option.some.injEq, Prod.mk.injEq] at hs
        obtain ⟨rfl, rfl⟩ := hs
        left
        simp only [Sum.elim_inl, snwW, MapConc.lex_iff, List.length_append, List.length_singleton]
        omega

/-- Proof only: the first position of the shards an operation uses. -/
noncomputable def lvlW (m : Shape) (pos : Nat → Nat) (o : SO V) : Nat := sInf {l | l = top m pos ∨ ∃ x, TouchesW m o x ∧ x < m.len ∧ l = pos x}

omit [DecidableEq V] in
theorem lvlW_le {pos : Nat → Nat} {o : SO V} {x : Nat} (h : TouchesW m o x) (hx : x < m.len) : lvlW m pos o ≤ pos x := Nat.sInf_le (.inr ⟨x, h, hx, rfl⟩)

omit [DecidableEq V] in
theorem lvlW_cases (m : Shape) (pos : Nat → Nat) (o : SO V) : lvlW m pos o = top m pos ∨ ∃ x, TouchesW m o x ∧ x < m.len ∧ lvlW m pos o = pos x :=
  Nat.sInf_mem (s := {l | l = top m pos ∨ ∃ x, TouchesW m o x ∧ x < m.len ∧ l = pos x}) ⟨_, .inl rfl⟩

omit [DecidableEq V] in
theorem lt_lvlW {pos : Nat → Nat} {o : SO V} {l : Nat} (hl : l < top m pos) (h : ∀ x, TouchesW m o x → l < pos x) : l < lvlW m pos o := by
  rcases lvlW_cases m pos o with h' | ⟨x, h1, _, h2⟩
  · rw [h']; exact hl
  · rw [h2]; exact h x h1

omit [DecidableEq V] in
/-- `Range` uses all shards. -/
theorem lvlW_range {pos : Nat → Nat} (f : Bytes → V → Nat → Bool) (o : SO V) : lvlW m pos (.inl (.range f)) ≤ lvlW m pos o := by
  rcases lvlW_cases m pos o with h' | ⟨x, h1, h2, h3⟩
  · rw [h']; exact Nat.sInf_le (.inl rfl)
  · rw [h3]; exact lvlW_le h2 h2

omit [DecidableEq V] in
/-- The calls of shards that a call makes are on shards that it uses, and that exist. -/
theorem touchesW {o : SO V} {tr : TrW V} {so : Nat × BO V} (h : m.nextW o tr = .inl so) : TouchesW m o so.1 ∧ so.1 < m.len := by
  have hP := nextW_inl h
  cases o with
  | inr c => obtain ⟨rfl, hlt⟩ := hP; exact ⟨hlt, hlt⟩
  | inl op =>
    obtain ⟨b, _, hP⟩ := hP
    simp only [Shape.nextW] at h
    split at h
    · rename_i y b' hn
      simp only [Sum.inl.injEq] at h
      subst h
      cases op with
      | mstore data =>
        obtain ⟨k, v, h1, e⟩ := hP
        simp only [Prod.mk.injEq] at e
        refine ⟨⟨k, v, List.mem_of_getElem? h1, e.1.symm⟩, ?_⟩
        simp only [Shape.next] at hn
        split at hn
        · simp at hn
        · split at hn
          · simp at hn
          · exact on_lt hn
      | range f =>
        obtain ⟨e, hlt⟩ := hP
        simp only [Prod.mk.injEq] at e
        have : y < m.len := by rw [e.1]; exact hlt
        exact ⟨this, this⟩
      | _ =>
        obtain ⟨k, b'', h1, h2, h3⟩ := hP
        simp only [keyed, Option.some.injEq, Prod.mk.injEq] at h1 h2
        obtain ⟨rfl, rfl⟩ := h1
        refine ⟨h2.1.symm, ?_⟩
        simp only [Shape.next] at hn
        split at hn
        · exact on_lt hn
        · simp at hn
    · simp at h

/-- Proof only: the position of the lock that is held. -/
def ownSW (pos : Nat → Nat) (_ : SO V) : CPt (BO V) (BRes V) (PtW Bytes V) → Option Nat
  | .inner _ so s => (ownW so.2 s).map fun _ => pos so.1
  | .between _ => none

theorem levelsSW {U : UsersSW V} {pos : Nat → Nat} (hU : OrderedW m pos U) : Levels (progSW m) (fnsSW U) (ownSW pos) (lvlW m pos) (top m pos) where
  waits {mm H} h {i o s} hp := by
    cases s with
    | between tr =>
      left
      cases hn : m.nextW o tr with
      | inl so => exact ⟨⟨mm.g, upd mm.pc i (.at o (.inner tr so (progW.begin so.2)))⟩, by simp only [Prog.mach, hp, progSW, Client.prog, clientW, hn]⟩
      | inr r => exact ⟨⟨mm.g, upd mm.pc i (.ret o r)⟩, by simp only [Prog.mach, hp, progSW, Client.prog, clientW, hn]⟩
    | inner tr so s =>
      obtain ⟨x, so⟩ := so
      obtain ⟨mx, Hx, h1, h2, h3, h4, -⟩ := (clientW m).part progW h x
      rcases MapWords.waitsW h1 (h3 i o tr so s hp) with ⟨⟨g', y⟩, hx⟩ | ⟨a1, j, o', s', a2, a3⟩
      · rw [h2] at hx
        have hx' : progW.step (mm.g x) (Nat.pair i tr.length) so s 0 = some (g', y) := hx
        left
        cases y with
        | inl s' => exact ⟨⟨upd mm.g x g', upd mm.pc i (.at o (.inner tr (x, so) s'))⟩, by simp only [Prog.mach, hp, progSW, Client.prog, hx']⟩
        | inr r => exact ⟨⟨upd mm.g x g', upd mm.pc i (.at o (.between (tr ++ [((x, so), r)])))⟩, by simp only [Prog.mach, hp, progSW, Client.prog, hx']⟩
      · obtain ⟨i', op', tr', _, b2⟩ := h4 _ _ _ a2
        obtain ⟨c1, c2⟩ := touchesW (currentW h hp)
        exact .inr ⟨by simp [ownSW, a1], pos x, i', op', _, lvlW_le c1 c2, lt_top c2, b2, by simp [ownSW, a3]⟩
  above {mm H} h {i o s} hp {l o'} hF := by
    obtain ⟨op, tr, y, b, p, k, v, n, rfl, rfl, hi, hu⟩ := fnsSW_some hF
    have hn := currentW h hp
    obtain ⟨b', e, hP⟩ := nextW_inl hn
    simp only [Sum.inl.injEq] at e
    subst e
    have hc : ∀ k₀, computes op = some k₀ → y = m.index k₀ → lvlW m pos (.inl op) ≤ lvlW m pos o' ∧
        ∀ l, ownSW pos (.inl op) (.inner tr (y, .inl b) (.pt p)) = some l → l < lvlW m pos o' := by
      intro k₀ h1 h2
      obtain ⟨h3, h4⟩ := touchesW hn
      have h5 : pos y < lvlW m pos o' := lt_lvlW (lt_top h4) fun x hx => by rw [h2]; exact hU _ _ _ _ _ _ _ _ h1 hu hx
      refine ⟨Nat.le_trans (lvlW_le h3 h4) (Nat.le_of_lt h5), fun l hl => ?_⟩
      simp only [ownSW, Option.map_eq_some_iff] at hl
      obtain ⟨_, _, rfl⟩ := hl
      exact h5
    cases op with
    | range f =>
      obtain ⟨e, _⟩ := hP
      simp only [Prod.mk.injEq] at e
      obtain ⟨rfl, rfl⟩ := e
      refine ⟨lvlW_range f o', fun l hl => ?_⟩
      cases p <;> simp [inside] at hi
      simp [ownSW, ownW, Pt.holds] at hl
    | mstore data =>
      obtain ⟨k', v', _, e⟩ := hP
      simp only [Prod.mk.injEq] at e
      obtain ⟨rfl, rfl⟩ := e
      simp [inside] at hi
    | computeIfAbsent k₀ f =>
      obtain ⟨k', b', h1, e, _⟩ := hP
      simp only [keyed, Option.some.injEq, Prod.mk.injEq] at h1 e
      exact hc k₀ rfl (by rw [e.1, h1.1])
    | computeIfPresent k₀ f =>
      obtain ⟨k', b', h1, e, _⟩ := hP
      simp only [keyed, Option.some.injEq, Prod.mk.injEq] at h1 e
      exact hc k₀ rfl (by rw [e.1, h1.1])
    | _ =>
      obtain ⟨k', b', h1, e, _⟩ := hP
      simp only [keyed, Option.some.injEq, Prod.mk.injEq] at h1 e
      obtain ⟨_, rfl⟩ := h1
      obtain ⟨_, rfl⟩ := e
      simp [inside] at hi

/-! ## C141 -/

section
variable {U : UsersSW V} {n : NConf (Nat → GW Bytes V) (SO V) (SRes V) (CPt (BO V) (BRes V) (PtW Bytes V))} {opts : List Int}

/-- **C141.** Calls made by user functions are calls like any others: the history, nested calls included, has an explanation in which a `Clear` that
has returned has emptied every shard, in order, each at one instant of the call; every other call that has returned has its effects as in C88; a
call that panicked has none, apart from an `MStore`, which has stored some of its first pairs but not all. -/
theorem C141_effects (h1 : 1 ≤ requested opts) (h2 : requested opts ≤ 2^31) (hm : newShape opts = some m) (h : NExec (progSW m) (fnsSW U) n H) :
    ∃ L st, ExplainsW m H L st ∧ RangeOkW H L st ∧ PresentOkW H L st := C119_effects h1 h2 hm h.flat

/-- **C141.** For every single key the calls that did not panic, nested ones included, are those of an ordinary map on which `Clear` removes everything,
if no `MStore` has the key and there is no `ComputeIfPresent` on it. -/
theorem C141_key_partial (h1 : 1 ≤ requested opts) (h2 : requested opts ≤ 2^31) (hm : newShape opts = some m) (h : NExec (progSW m) (fnsSW U) n H) (k : Bytes)
    (hms : ∀ i data, Ev.inv i (.inl (.mstore data)) ∈ H → ∀ y ∈ data, y.1 ≠ k)
    (hcp : ∀ i f, Ev.inv i (.inl (.computeIfPresent k f)) ∉ H) : Linearizable strictSharedC (about (· = k) H) := C119_key_partial h1 h2 hm h.flat k hms hcp

/-- **C141.** Only calls that overlap a `Clear` can panic. -/
theorem C141_panics (h1 : 1 ≤ requested opts) (h2 : requested opts ≤ 2^31) (hm : newShape opts = some m) (h : NExec (progSW m) (fnsSW U) n H) {i : Nat}
    (hr : Ev.ret i .panic ∈ H) : (∃ op, Ev.inv i (.inl op) ∈ H) ∧ ∃ j, Ev.inv j (.inr .clear) ∈ H ∧ ¬ Before H j i ∧ ¬ Before H i j :=
  C119_panics h1 h2 hm h.flat hr

/-- **C141.** If every function makes finitely many calls and the depth of the nesting is limited, then no schedule runs on forever, unless
goroutines begin new calls. -/
theorem C141_ends {rank : SO V → Nat} (hd : DepthSW U rank) (hf : FiniteSW U) (h : NExec (progSW m) (fnsSW U) n H) : Acc (NMoves (progSW m) (fnsSW U)) n :=
  h.ends (finitarySW hd hf) C119_ends

/-- **C141, the part that holds.** Every call returns or panics if the functions of `ComputeIfAbsent` and `ComputeIfPresent` use only shards that come
later than the shard of their key, in some order of the shards, and so do not call `Clear`: where nothing moves, no call is left. Missing: the same
without this condition, which is false (`C141_clear_refuted`). -/
theorem C141_returns_partial {pos : Nat → Nat} (hU : OrderedW m pos U) (h : NExec (progSW m) (fnsSW U) n H) (hs : n.Stuck (progSW m) (fnsSW U)) {i : Nat}
    {o : SO V} (hi : Ev.inv i o ∈ H) : ∃ r, Ev.ret i r ∈ H :=
  h.all_returned (h.no_deadlock (levelsSW hU) hs) hi

/-- A function that begins `Clear` while its own call holds the lock of a shard does not return once the `Clear` has come to that shard. -/
theorem stuck_foreverSW {n' : NConf (Nat → GW Bytes V) (SO V) (SRes V) (CPt (BO V) (BRes V) (PtW Bytes V))} {H' : List (Ev (SO V) (SRes V))}
    (h : NExec (progSW m) (fnsSW U) n H) {t i j x u : Nat} {l l' : List (SO V × SRes V)} {tr : TrW V} {rest : List (Conc.Frame (SO V) (SRes V))}
    (hst : n.stack t = (j, l) :: rest) (hm : (i, l') ∈ rest) (hmu : (n.m.g x).g.mu = some (Nat.pair i u))
    (hp : n.m.pc j = .at (.inr .clear) (.inner tr (x, .inr .clear) (.cl .lock))) (hpi : ∀ o r, n.m.pc i ≠ .ret o r)
    (hl : NLeads (progSW m) (fnsSW U) n H n' H') (r : SRes V) : Ev.ret i r ∉ H' ∧ Ev.ret j r ∉ H' := by
  have := hl.still h (D := fun t' => t' = t) (Q := fun g => (g x).g.mu = some (Nat.pair i u)) hmu
    (by
      rintro t' rfl
      refine ⟨j, l, rest, .inr .clear, _, hst, hp, rfl, fun g c hg => ?_⟩
      have hn : progW.step (g x) (Nat.pair j tr.length) (.inr .clear) (.cl .lock) c = none := by simp [progW, MapWords.stepW, MapWords.clearW, hg]
      simp only [progSW, Client.prog, hn])
    (by
      intro n₁ H₁ h₁ hS hq j' o s c g' y hpj hno hx
      have hne : j' ≠ i := by
        rintro rfl
        exact hno t l' rfl (by rw [(hS t rfl).1, hst]; exact List.mem_cons_of_mem _ hm)
      cases s with
      | between tr =>
        simp only [progSW, Client.prog] at hx
        split at hx <;> simp only [Option.some.injEq, Prod.mk.injEq] at hx <;> obtain ⟨rfl, _⟩ := hx <;> exact hq
      | inner tr so s =>
        obtain ⟨x', so⟩ := so
        have hg : ∃ g₁ z, MapWords.stepW (n₁.m.g x') (Nat.pair j' tr.length) so s c = some (g₁, z) ∧ g' = upd n₁.m.g x' g₁ := by
          simp only [progSW, Client.prog] at hx
          split at hx
          · simp at hx
          all_goals
            rename_i g₁ z hz
            simp only [Option.some.injEq, Prod.mk.injEq] at hx
            exact ⟨g₁, _, hz, hx.1.symm⟩
        obtain ⟨g₁, z, hz, rfl⟩ := hg
        by_cases hxy : x = x'
        · subst hxy
          rw [upd_same]
          obtain ⟨mx, Hx, a1, a2, a3, -⟩ := (clientW m).part progW h₁.flat x
          rw [← a2] at hz hq
          exact MapWords.mu_staysW a1 hq (a3 j' o tr so s hpj) (fun hc => hne (Nat.pair_eq_pair.mp hc).1) hz
        · rw [upd_ne _ _ hxy]; exact hq)
  exact ⟨this.2.not_returned (hl.exec h) rfl (tr := l') (by rw [hst]; exact List.mem_cons_of_mem _ hm) (fun o' r' hc => hpi o' r' hc) r,
    this.2.not_returned (hl.exec h) rfl (tr := l) (by rw [hst]; simp) (fun o' r' hc => by rw [hp] at hc; simp at hc) r⟩

end

/-! ## Concrete cases -/

/-- A function of `Range` calls `Clear` and then `ComputeIfAbsent`, whose functions for keys of shard 0 load key 98, which is in shard 1. -/
def clearsSW : UsersSW Nat := fun op k _ _ tr => match op, tr with
  | .range _, [] => some (.inr .clear)
  | .range _, [_] => some (.inl (.computeIfAbsent (0 :: k) fun _ _ => 7))
  | .computeIfAbsent k₀ _, [] => if two.index k₀ = 0 then some (.inl (.load [98])) else none
  | _, _ => none

/-- For the concrete cases beside the theorems. -/
def depthSW : SO Nat → Nat
  | .inl op => depthTwo op
  | .inr _ => 0

theorem clearsSW_some {op : SOp Nat} {o : SO Nat} {k : Bytes} {n : Nat} {v : Option Nat} {tr : List (SO Nat × SRes Nat)} (h : clearsSW op k v n tr = some o) :
    depthSW o < depthTwo op ∧ tr.length < 2 ∧ ∀ k₀, computes op = some k₀ → two.index k₀ = 0 ∧ o = .inl (.load [98]) := by
  cases op <;> simp [clearsSW] at h
  case range =>
    match tr, h with
    | [], h => simp at h; subst h; simp [depthSW, depthTwo, computes]
    | [_], h => simp at h; subst h; simp [depthSW, depthTwo, computes]
    | _ :: _ :: _, h => simp at h
  case computeIfAbsent =>
    match tr, h with
    | [], h => simp at h; obtain ⟨h', rfl⟩ := h; simp [depthSW, depthTwo, computes, h']
    | _ :: _, h => simp at h

theorem clearsSW_depth : DepthSW clearsSW depthSW := fun _ _ _ _ _ _ h => (clearsSW_some h).1

theorem clearsSW_finite : FiniteSW clearsSW := by
  intro op k v n
  refine Subrelation.wf (r := InvImage (· < ·) fun tr => 2 - tr.length) ?_ (InvImage.wf _ Nat.lt_wfRel.wf)
  rintro tr' tr ⟨o, r, h, rfl⟩
  have := (clearsSW_some h).2.1
  simp only [InvImage, List.length_append, List.length_singleton]
  omega

theorem clearsSW_ordered : OrderedW two id clearsSW := by
  intro op k₀ k v n tr o x h1 h2 h3
  obtain ⟨h4, rfl⟩ := (clearsSW_some h2).2.2 k₀ h1
  have h5 : two.index [98] = x := h3
  simp only [id, h4, ← h5]
  decide

/-- For the concrete cases beside the theorems. -/
def nrunsSW (n t : Nat) : List (NMove (SO Nat)) := List.replicate n (.run t 0)

/-- Three levels: the function of a `Range` calls `Clear` and then `ComputeIfAbsent`, whose function calls `Load`; a `Load` of another goroutine, which
overlaps the `Clear`, has panicked. -/
theorem demoClearsSW : ∃ n : NConf (Nat → GW Bytes Nat) _ _ _, NExec (progSW two) (fnsSW clearsSW) n [.inv 1 (.inl (.store [97] 5)), .ret 1 .unit,
    .inv 2 (.inl (.range fun _ _ _ => true)), .inv 6 (.inl (.load [97])), .inv 3 (.inr .clear), .ret 6 .panic, .ret 3 .unit,
    .inv 4 (.inl (.computeIfAbsent [0, 97] fun _ _ => 7)), .inv 5 (.inl (.load [98]))] ∧ n.stack 7 = [(5, []), (4, []), (2, [(.inr .clear, .unit)])] :=
  exists_nexec ([.start 7 1 (.inl (.store [97] 5))] ++ nrunsSW 13 7 ++ [.start 7 2 (.inl (.range fun _ _ _ => true))] ++ nrunsSW 8 7 ++
    [.start 9 6 (.inl (.load [97]))] ++ nrunsSW 2 9 ++ [.nest 7 3] ++ nrunsSW 4 7 ++ nrunsSW 3 9 ++ nrunsSW 12 7 ++ [.nest 7 4] ++ nrunsSW 9 7 ++ [.nest 7 5]) _ _
    (by exact And.intro rfl rfl)

example := demoClearsSW.elim fun _ h => C141_effects (opts := [2]) (by decide) (by decide) rfl h.1

example := demoClearsSW.elim fun _ h => C141_panics (opts := [2]) (i := 6) (by decide) (by decide) rfl h.1 (by simp)

example := demoClearsSW.elim fun _ h => C141_key_partial (opts := [2]) (by decide) (by decide) rfl h.1 [97] (by simp) (by simp)

example := demoClearsSW.imp fun _ h => C141_ends clearsSW_depth clearsSW_finite h.1

/-- From there an execution leads to a state in which nothing moves, and all have returned there. -/
example : ∃ n H r r' r'', NExec (progSW two) (fnsSW clearsSW) n H ∧ n.Stuck (progSW two) (fnsSW clearsSW) ∧ Ev.ret 2 r ∈ H ∧ Ev.ret 4 r' ∈ H ∧ Ev.ret 5 r'' ∈ H := by
  obtain ⟨n, h, _⟩ := demoClearsSW
  obtain ⟨n', H', h1, h2⟩ := exists_stuck (C141_ends clearsSW_depth clearsSW_finite h) _
  have h3 := h1.exec h
  obtain ⟨r, hr⟩ := C141_returns_partial clearsSW_ordered h3 h2 (i := 2) (o := .inl (.range fun _ _ _ => true)) (by simp)
  obtain ⟨r', hr'⟩ := C141_returns_partial clearsSW_ordered h3 h2 (i := 4) (o := .inl (.computeIfAbsent [0, 97] fun _ _ => 7)) (by simp)
  obtain ⟨r'', hr''⟩ := C141_returns_partial clearsSW_ordered h3 h2 (i := 5) (o := .inl (.load [98])) (by simp)
  exact ⟨n', _, r, r', r'', h3, h2, hr, hr', hr''⟩

/-- Every function calls `Clear`, once. -/
def clearOnceSW : UsersSW Nat := fun _ _ _ _ tr => match tr with
  | [] => some (.inr .clear)
  | _ => none

/-- **C141, the refutation.** If the function of `ComputeIfAbsent` calls `Clear`, neither call returns, however the execution continues. -/
theorem C141_clear_refuted : ∃ n H, NExec (progSW two) (fnsSW clearOnceSW) n H ∧
    H = [.inv 1 (.inl (.computeIfAbsent [97] fun _ _ => 5)), .inv 2 (.inr .clear)] ∧
    ∀ n' H', NLeads (progSW two) (fnsSW clearOnceSW) n H n' H' → ∀ r, Ev.ret 1 r ∉ H' ∧ Ev.ret 2 r ∉ H' := by
  have : ∃ n : NConf (Nat → GW Bytes Nat) _ _ _, NExec (progSW two) (fnsSW clearOnceSW) n [.inv 1 (.inl (.computeIfAbsent [97] fun _ _ => 5)), .inv 2 (.inr .clear)] ∧
      n.stack 7 = [(2, []), (1, [])] ∧ (n.m.g 0).g.mu = some (Nat.pair 1 0) ∧ n.m.pc 2 = .at (.inr .clear) (.inner [] (0, .inr .clear) (.cl .lock)) ∧
      n.m.pc 1 = .at (.inl (.computeIfAbsent [97] fun _ _ => 5)) (.inner [] (0, .inl (.computeIfAbsent [97] fun _ _ => 5)) (.pt .addCall)) :=
    exists_nexec ([.start 7 1 (.inl (.computeIfAbsent [97] fun _ _ => 5))] ++ nrunsSW 9 7 ++ [.nest 7 2] ++ nrunsSW 1 7) _ _
      (by exact And.intro rfl (And.intro rfl (And.intro rfl (And.intro rfl rfl))))
  obtain ⟨n, h1, h2, h3, h4, h5⟩ := this
  exact ⟨n, _, h1, rfl, fun n' H' hl r => stuck_foreverSW h1 h2 (List.mem_singleton.mpr rfl) h3 h4 (by simp [h5]) hl r⟩

end Verif.XSync.SharedConc

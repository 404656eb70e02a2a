import Verif.XMapReduce.StreamProps
import Verif.Conc.NetKeep
/-!
# Programs that start with `MapStream` and a context that may become done (C120)

`MapStream` with a context is one of the nodes of which programs consist (`Node.mapStreamCtx`), so that all theorems about programs hold for
programs with it too. Here: what such programs compute, and that they do not need the cancellation in order to end.
-/
namespace Verif.XMapReduce
open Verif.Go Verif.XTask Verif.XStream Verif.Conc.Net

variable {α K β : Type} [DecidableEq K]

omit [DecidableEq K] in
theorem mapCtx_shape {items : List β} {f : β → List (Val α)} {size : Nat} :
    (mapCtxC items f size : Comp (Val α) (Ev α K)).nin = 0 ∧ (mapCtxC items f size : Comp (Val α) (Ev α K)).nout = 1 := ⟨rfl, rfl⟩

/-- If the component is a `MapStream` with a context, the context is in the same state before and after. -/
def SameCtx (nd : Node α K) (C : Comp (Val α) (Ev α K)) (s s' : C.σ) : Prop :=
  ∀ (γ : Type) (items : List γ) (f : γ → List (Val α)) (sizes : List Int), nd = .mapStreamCtx items f sizes →
    ∀ e : C = mapCtxC items f (loadOption sizes).toNat,
      (cast (congrArg Comp.σ e) s : MR γ (Val α)).ctx = (cast (congrArg Comp.σ e) s' : MR γ (Val α)).ctx

section
variable {N : Net (Val α) (Ev α K)} {node : Nat → Node α K}

/-- C120: a stream from `MapStream` with a context that may become done at any time, anywhere in a program: the output, when nothing can
happen any more, is an interleaving of prefixes of what the mapping writes for the items (one prefix for each item, possibly empty), and
with one worker a prefix of what the mappings write in the order of the items. -/
theorem C120_node (hp : IsProgram N node) (hf : FewValues N) {m : NState N} (hr : NReach N m) (hend : ∀ m', ¬ NStep m m') {i : Nat} (hi : i < N.n)
    {items : List β} {f : β → List (Val α)} {sizes : List Int} (ho : node i = .mapStreamCtx items f sizes) :
    (∃ ls, List.Forall₂ (· <+: ·) ls (items.map f) ∧ Interleaving ls ((m.hist i).outs 0)) ∧
      (loadOption sizes = 1 → (m.hist i).outs 0 <+: items.flatMap f) := by
  have h := C43_nodes hp hf hr hend hi
  rw [ho] at h
  exact ⟨h.1, h.2.1⟩

/-- C120: nobody has to cancel: as long as not everything has ended, something other than the end of a context can happen. -/
theorem C120_no_wait (hp : IsProgram N node) (hf : FewValues N) {m : NState N} (hr : NReach N m) (hn : ¬ ∀ i < N.n, (N.comp i).done (m.st i)) :
    ∃ m', NStep m m' ∧ ∀ i, SameCtx (node i) (N.comp i) (m.st i) (m'.st i) := by
  refine progress_in hp.wf hf hp.good (fun i => SameCtx (node i) (N.comp i)) (fun i s γ items f sizes _ e => rfl) ?_ ?_ ?_ hr hn
  · intro i hi s l s' hst hl γ items f sizes hnd e
    generalize N.comp i = C at *
    subst e
    cases l with
    | recv p v => exact hst.elim
    | eof p => exact hst.elim
    | _ => simp [Lbl.isOut] at hl
  · rintro i hi s h hcr hsm hd ⟨l, s', hst, hl⟩
    have hb := hp.built i hi
    have hv := hp.valid i hi
    generalize N.comp i = C at *
    generalize node i = nd at *
    cases nd with
    | mapStreamCtx items f sizes =>
      replace hb : C = mapCtxC items f (loadOption sizes).toNat := hb
      subst hb
      have hv : 1 ≤ loadOption sizes := hv
      obtain ⟨l, s', h1, h2, h3⟩ := mapCtx_active (by omega) (mapCtx_state hcr) hd
      refine ⟨l, s', h1, h2, fun γ items' f' sizes' hnd e => ?_⟩
      cases hnd
      exact h3.symm
    | _ => exact ⟨l, s', hst, hl, fun γ items' f' sizes' hnd => by cases hnd⟩
  · rintro i hi s h hcr hsm hd hnin ⟨l, s', hst, hl⟩
    have hb := hp.built i hi
    generalize N.comp i = C at *
    generalize node i = nd at *
    refine ⟨l, s', hst, hl, fun γ items' f' sizes' hnd e => ?_⟩
    subst e
    exact absurd hnin (Nat.lt_irrefl 0)

/-- C120: from every state on, everything can end without any further context becoming done. -/
theorem C120_ends (hp : IsProgram N node) (hf : FewValues N) {m : NState N} (hr : NReach N m) :
    ∃ m', NReach N m' ∧ Relation.ReflTransGen NStep m m' ∧ (∀ i < N.n, (N.comp i).done (m'.st i)) ∧ ∀ i, SameCtx (node i) (N.comp i) (m.st i) (m'.st i) := by
  by_contra hc
  let P : NState N → Prop := fun x => NReach N x ∧ Relation.ReflTransGen NStep m x ∧ ∀ i, SameCtx (node i) (N.comp i) (m.st i) (x.st i)
  have hstep : ∀ x : { x : NState N // P x }, ∃ y : { x : NState N // P x }, NStep x.1 y.1 := by
    intro x
    obtain ⟨y, hs, hk⟩ := C120_no_wait hp hf x.2.1 fun hd => hc ⟨x.1, x.2.1, x.2.2.1, hd, x.2.2.2⟩
    exact ⟨⟨y, .step x.2.1 hs, x.2.2.1.tail hs, fun i γ items f sizes hnd e => (x.2.2.2 i γ items f sizes hnd e).trans (hk i γ items f sizes hnd e)⟩, hs⟩
  choose next hnext using hstep
  let e : Nat → { x : NState N // P x } := fun k => Nat.rec ⟨m, hr, .refl, fun i γ items f sizes hnd e => rfl⟩ (fun _ x => next x) k
  exact (C45_no_deadlock hp hf).2.1 (fun k => (e k).1) (e 0).2.1 fun k => hnext (e k)

/-- C120: if the context has not become done when everything has ended, nothing is missing, and the generator has ended too. -/
theorem C120_complete (hp : IsProgram N node) (hf : FewValues N) {m : NState N} (hr : NReach N m) {i : Nat} (hi : i < N.n)
    {items : List β} {f : β → List (Val α)} {sizes : List Int} (e : N.comp i = mapCtxC items f (loadOption sizes).toNat)
    (hd : (N.comp i).done (m.st i)) (hctx : (cast (congrArg Comp.σ e) (m.st i) : MR β (Val α)).ctx = none) :
    Interleaving (items.map f) ((m.hist i).outs 0) ∧ (loadOption sizes = 1 → (m.hist i).outs 0 = items.flatMap f) ∧
      (cast (congrArg Comp.σ e) (m.st i) : MR β (Val α)).srcClosed = true := by
  have hcr := (hp.inv hf hr).reach i hi
  generalize m.hist i = h at *
  generalize m.st i = s at *
  generalize N.comp i = C at *
  subst e
  replace hctx : MR.ctx s = none := hctx
  have hst := mapCtx_state hcr
  have hi := inv_reach hst.reach
  replace hd : MR.overCtx s := hd
  have hcl : s.collector.closed = true := by rw [hi.closed, hd.1]
  have hr' := hst.reach.step (.consumeEnd s hi.crashed hst.drained (by simp [Chan.recv, hst.buf, hcl]))
  rw [hst.out]
  refine ⟨C103_order (m := { s with drained := true }) hr' hctx rfl, fun h1 => ?_, ?_⟩
  · rw [h1] at hr'
    exact C103_in_order (m := { s with drained := true }) hr' hctx rfl
  · exact (C79_generator_partial hst.reach hctx hcl).2

variable {items : List β} {f : β → List (Val α)} {sizes : List Int} {ops : List (Op α K)} {term : Term α K}

theorem mapCtx_program (h : mapCtxProgram items f sizes ops term = some N) :
    ¬ loadOption sizes < 0 ∧ programFrom (mapCtxC items f (loadOption sizes).toNat) ops term = some N := by
  unfold mapCtxProgram at h
  split at h
  · simp at h
  · exact ⟨by assumption, h⟩

theorem mapCtx_is (h : mapCtxProgram items f sizes ops term = some N) (h1 : 1 ≤ loadOption sizes) (hv : ∀ o ∈ ops, o.Valid) :
    IsProgram N (chainNodes (.mapStreamCtx items f sizes) (stages ops) term) ∧ N.n = (stages ops).length + 2 :=
  from_is (n₀ := .mapStreamCtx items f sizes) rfl h1 mapCtx_shape (mapCtx_program h).2 hv

theorem mapCtx_few (h : mapCtxProgram items f sizes ops term = some N) (h1 : 1 ≤ loadOption sizes) (hv : ∀ o ∈ ops, o.Valid) {b : Nat} (hb : 1 ≤ b)
    (he : ∀ o ∈ ops, o.Emits b) (hlt : max 1 (items.flatMap f).length * b ^ ops.length < 2 ^ 63) : FewValues N :=
  from_few (n₀ := .mapStreamCtx items f sizes) rfl h1 mapCtx_shape (fun _ _ hr => mapCtx_bound hr) (mapCtx_program h).2 hv hb he hlt

/-- C120: a program that starts with `MapStream` and a context that may become done at any time never panics; every execution of it is
finite; it never has to wait for the context; it can stop only when all its goroutines have ended, except possibly for the generator, and
then it has done to some interleaving of prefixes of what the mapping writes for the items what its operations do to lists. -/
theorem C120_program (h : mapCtxProgram items f sizes ops term = some N) (h1 : 1 ≤ loadOption sizes) (hv : ∀ o ∈ ops, o.Valid) (hf : FewValues N) :
    (∀ m, NReach N m → m.crashed = false) ∧
    (∀ e : Nat → NState N, NReach N (e 0) → ¬ ∀ k, NStep (e k) (e (k + 1))) ∧
    (∀ m, NReach N m → (¬ ∀ i < N.n, (N.comp i).done (m.st i)) →
      ∃ m', NStep m m' ∧ SameCtx (.mapStreamCtx items f sizes) (N.comp 0) (m.st 0) (m'.st 0)) ∧
    ∀ m, NReach N m → (∀ m', ¬ NStep m m') → (∀ i < N.n, (N.comp i).done (m.st i)) ∧
      ∃ xs zs logs, (∃ ls, List.Forall₂ (· <+: ·) ls (items.map f) ∧ Interleaving ls xs) ∧ (loadOption sizes = 1 → xs <+: items.flatMap f) ∧
        OpsDo ops xs zs logs ∧ term.Does zs (m.hist (N.n - 1)).log ∧
        logs.flatten = (List.range (N.n - 2)).flatMap fun j => (m.hist (j + 1)).log := by
  have hp := (mapCtx_is h h1 hv).1
  refine ⟨fun m hr => (C44_close_once hp hf hr).1, (C45_no_deadlock hp hf).2.1, fun m hr hn => ?_, fun m hr hend => ?_⟩
  · obtain ⟨m', hs, hk⟩ := C120_no_wait hp hf hr hn
    exact ⟨m', hs, hk 0⟩
  have hd := (C45_no_deadlock hp hf).1 m hr hend
  obtain ⟨zs, logs, h2, h3⟩ := from_result (n₀ := .mapStreamCtx items f sizes) rfl h1 mapCtx_shape (mapCtx_program h).2 hv hf hr hd
  exact ⟨hd, _, zs, logs, h2.1, h2.2.1, h3⟩
end

/-! ### MapStream(1, 2, 3; write x and 10 * x) with two workers and a context, Map(add one), ForeachOrdered -/

/-- For the concrete cases beside the theorems. -/
def mapCtxNet : Net (Val Nat) (Ev Nat Nat) :=
  (mapCtxProgram [1, 2, 3] (fun x : Nat => [.atom x, .atom (10 * x)]) [4, 2] mapOps .foreachOrdered).get (by rfl)

theorem mapCtxNet_program : mapCtxProgram [1, 2, 3] (fun x : Nat => [.atom x, .atom (10 * x)]) [4, 2] mapOps .foreachOrdered = some mapCtxNet := rfl

theorem mapCtxNet_few : FewValues mapCtxNet := mapCtx_few (b := 1) mapCtxNet_program (by decide) mapOps_valid (by omega) (by
    intro o ho
    simp only [mapOps, List.mem_cons, List.not_mem_nil, or_false] at ho
    subst ho; trivial) (by simp [mapOps])

theorem mapCtxNet_is : IsProgram mapCtxNet (chainNodes (.mapStreamCtx [1, 2, 3] (fun x : Nat => [.atom x, .atom (10 * x)]) [4, 2]) mapOps .foreachOrdered) :=
  (mapCtx_is mapCtxNet_program (by decide) mapOps_valid).1

example := (ends mapCtxNet_is mapCtxNet_few).imp fun _ h => C120_node mapCtxNet_is mapCtxNet_few h.1 h.2 (i := 0) (by decide) rfl

example := (ends mapCtxNet_is mapCtxNet_few).imp fun m h => (C120_program mapCtxNet_program (by decide) mapOps_valid mapCtxNet_few).2.2.2 m h.1 h.2

/-- The program can end without the context becoming done, and then six values have come out. -/
example : ∃ m : NState mapCtxNet, NReach mapCtxNet m ∧ ((m.hist 0).outs 0).length = 6 := by
  obtain ⟨m, h1, _, h2, h3⟩ := C120_ends mapCtxNet_is mapCtxNet_few .init
  have hc := (h3 0 _ _ _ _ rfl rfl).symm
  exact ⟨m, h1, (C120_complete mapCtxNet_is mapCtxNet_few h1 (i := 0) (by decide) (sizes := [4, 2]) rfl (h2 0 (by decide)) hc).1.perm.length_eq⟩

/-- C120: with a context that becomes done it is false that nothing is lost: everything ends although no value has come out. -/
theorem C120_all_refuted : ∃ m : NState mapCtxNet, NReach mapCtxNet m ∧ (∀ i < mapCtxNet.n, (mapCtxNet.comp i).done (m.st i)) ∧ (m.hist 0).outs 0 = [] := by
  let s0 : MR Nat (Val Nat) := start [1, 2, 3] 2 none
  let s1 : MR Nat (Val Nat) := { s0 with ctx := some .ctx }
  let s2 : MR Nat (Val Nat) := { s1 with pc := .wait }
  let s3 : MR Nat (Val Nat) := { s2 with pc := .close }
  let s4 : MR Nat (Val Nat) := { s3 with pc := .ended, collector := { s3.collector with closed := true }, closes := 1 }
  have h1 : NReach mapCtxNet _ := .step .init (.tau _ 0 s1 rfl (by decide) ⟨.cancel s0 rfl rfl, rfl, rfl, fun _ h => by cases h.1⟩)
  have h2 : NReach mapCtxNet _ := .step h1 (.tau _ 0 s2 rfl (by decide) ⟨.selectDone s1 rfl rfl (by simp [s1]), rfl, rfl, fun h => absurd rfl h⟩)
  have h3 : NReach mapCtxNet _ := .step h2 (.tau _ 0 s3 rfl (by decide) ⟨.waited s2 rfl rfl rfl, rfl, rfl, fun h => absurd rfl h⟩)
  have h4 : NReach mapCtxNet _ := .step h3 (.close _ 0 0 s4 rfl (by decide) ⟨rfl, .close s3 rfl rfl, rfl⟩ rfl)
  obtain ⟨m, hm, hd⟩ := (C45_no_deadlock mapCtxNet_is mapCtxNet_few).2.2 _ h4
  have key : NReach mapCtxNet m ∧ m.closed 0 0 = true ∧ (m.hist 0).outs 0 = [] := by
    clear hd
    induction hm with
    | refl => exact ⟨h4, rfl, rfl⟩
    | tail _ hs ih =>
      obtain ⟨i1, i2, i3⟩ := ih
      obtain ⟨j1, j2⟩ := closed_step mapCtxNet_is mapCtxNet_few i1 hs (i := 0) (q := 0) (by decide) (by decide) i2
      exact ⟨.step i1 hs, j1, j2.trans i3⟩
  exact ⟨m, key.1, hd, key.2.2⟩

end Verif.XMapReduce

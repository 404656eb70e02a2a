import Verif.XStream.PanicTerm
/-!
# C101: what a panic of a user function does to a stream

`Walk`, `Map`, `Filter`, `FlatMap` lose nothing but the rest of the output of the call that panics; `Peek` leaves its consumer waiting for
ever; `Distinct` ends its stream as if it were complete; after a panic in `Foreach` the goroutines upstream are left behind.
-/
namespace Verif.XStream
open Verif.Go Verif.Conc.Net

variable {α K : Type}

section
variable [DecidableEq K] {N : Net (Val α) (Ev α K)} {node : Nat → Node α K}

/-! ## Walk -/

theorem filterMap_eq_flatMap {A B : Type} (fn : A → Option B) (l : List A) : l.flatMap (fun v => (fn v).toList) = l.filterMap fn := by
  induction l with
  | nil => rfl
  | cons x l ih => cases h : fn x <;> simp [h, ih]

theorem filter_eq_flatMap {A : Type} (p : A → Option Bool) (l : List A) :
    l.flatMap (fun v => if p v = some true then [v] else []) = l.filter fun v => p v = some true := by
  induction l with
  | nil => rfl
  | cons x l ih => by_cases h : p x = some true <;> simp [h, ih]

/-- C101: Map(fn), where `fn` panics for some elements, sends the results for all other elements and nothing else, whatever the number of
workers; with one worker in the order of the stream. (Like every operation of a program it closes its output, and the program does not get
stuck: `C44_close_once`, `C45_no_deadlock`.) -/
theorem C101_map (hp : IsProgram N node) (hf : FewValues N) {m : NState N} (hr : NReach N m) (hend : ∀ m', ¬ NStep m m') {i : Nat} (hi : i < N.n)
    {fn : Val α → Option (Val α)} {opts : List Opt} (ho : node i = .op (.map fn opts)) :
    ((m.hist i).outs 0).Perm (((m.hist i).ins 0).filterMap fn) ∧ (loadOptions opts = 1 → (m.hist i).outs 0 = ((m.hist i).ins 0).filterMap fn) := by
  refine ⟨?_, fun h1 => ?_⟩
  · have h := ((C49_walk hp hf hr hi ho (f := Map.body fn) (size := loadOptions opts) rfl).2 hend).2.2.2
    rwa [show (fun v => (Map.body fn v).sends) = fun v => (fn v).toList from rfl, filterMap_eq_flatMap] at h
  · have h := (C50_in_order hp hf hr hend hi ho (f := Map.body fn) (by rw [Op.walkOf, h1])).1
    rwa [show (fun v => (Map.body fn v).sends) = fun v => (fn v).toList from rfl, filterMap_eq_flatMap] at h

/-- C101: Filter(fn), where `fn` panics for some elements, sends exactly the elements for which it returns true. -/
theorem C101_filter (hp : IsProgram N node) (hf : FewValues N) {m : NState N} (hr : NReach N m) (hend : ∀ m', ¬ NStep m m') {i : Nat} (hi : i < N.n)
    {fn : Val α → Option Bool} {opts : List Opt} (ho : node i = .op (.filter fn opts)) :
    ((m.hist i).outs 0).Perm (((m.hist i).ins 0).filter fun v => fn v = some true) ∧
    (loadOptions opts = 1 → (m.hist i).outs 0 = ((m.hist i).ins 0).filter fun v => fn v = some true) := by
  refine ⟨?_, fun h1 => ?_⟩
  · have h := ((C49_walk hp hf hr hi ho (f := Filter.body fn) (size := loadOptions opts) rfl).2 hend).2.2.2
    rwa [show (fun v => (Filter.body fn v).sends) = fun v => if fn v = some true then [v] else [] from rfl, filter_eq_flatMap] at h
  · have h := (C50_in_order hp hf hr hend hi ho (f := Filter.body fn) (by rw [Op.walkOf, h1])).1
    rwa [show (fun v => (Filter.body fn v).sends) = fun v => if fn v = some true then [v] else [] from rfl, filter_eq_flatMap] at h

/-- C101: Walk (and FlatMap): every element is handled, the call ends by a panic exactly for the elements for which the function panics, and what
the calls have sent, before a panic or not, is what is received. -/
theorem C101_walk (hp : IsProgram N node) (hf : FewValues N) {m : NState N} (hr : NReach N m) (hend : ∀ m', ¬ NStep m m') {i : Nat} (hi : i < N.n)
    {f : Val α → Body α} {opts : List Opt} (ho : node i = .op (.walk f opts)) :
    (calls (m.hist i).log).Perm ((m.hist i).ins 0) ∧ (endings (m.hist i).log).Perm (((m.hist i).ins 0).map fun v => (v, (f v).panics)) ∧
    Interleaving (((m.hist i).ins 0).map fun v => (f v).sends) ((m.hist i).outs 0) := by
  have h := (C49_walk hp hf hr hi ho (f := f) (size := loadOptions opts) rfl).2 hend
  exact ⟨h.1, h.2.1, h.2.2.1⟩
end

/-! ### A program for the examples: Of(1, 2, 3, 4), Map (half of even numbers, panics for odd ones), Filter (panics for 1), ForeachOrdered -/

/-- For the concrete cases beside the theorems. -/
def panicOps : List (Op Nat Nat) := [.map (fun v => if num v % 2 = 0 then some (.atom (num v / 2)) else none) [.workSize 3],
  .filter (fun v => if num v = 1 then none else some true) []]

/-- For the concrete cases beside the theorems. -/
def panicSrc : Source Nat := .of [.atom 1, .atom 2, .atom 3, .atom 4]

/-- For the concrete cases beside the theorems. -/
def panicNet : Net (Val Nat) (Ev Nat Nat) := ((program panicSrc panicOps .foreachOrdered).get (by rfl))

theorem panic_program : program panicSrc panicOps .foreachOrdered = some panicNet := rfl

theorem panic_valid : ∀ o ∈ panicOps, o.Valid := by
  intro o ho
  simp only [panicOps, List.mem_cons, List.not_mem_nil, or_false] at ho
  rcases ho with rfl | rfl <;> trivial

theorem panic_is : IsProgram panicNet (pipeNodes panicSrc panicOps .foreachOrdered) := (program_is panic_program panic_valid).1

theorem panic_few : FewValues panicNet := program_few (b := 1) panic_program panic_valid (by omega) (by
    intro o ho
    simp only [panicOps, List.mem_cons, List.not_mem_nil, or_false] at ho
    rcases ho with rfl | rfl <;> trivial)
  (by simp [panicSrc, Source.items])

/-- ForeachOrdered gets the element 2 only. -/
example : ∃ m, NReach panicNet m ∧ (m.hist 3).log = [.call (.atom 2), .ret .unit] := by
  obtain ⟨m, hr, hend⟩ := ends panic_is panic_few
  refine ⟨m, hr, ?_⟩
  obtain ⟨f1, f2⟩ := final panic_is.wf panic_few panic_is.good hr (stuck_done panic_is.wf panic_few panic_is.good hr hend)
  have e1 : (m.hist 1).ins 0 = (m.hist 0).outs 0 := f2 1 (by decide) 0 (by decide)
  have e2 : (m.hist 2).ins 0 = (m.hist 1).outs 0 := f2 2 (by decide) 0 (by decide)
  have e3 : (m.hist 3).ins 0 = (m.hist 2).outs 0 := f2 3 (by decide) 0 (by decide)
  have e0 : (m.hist 0).outs 0 = [.atom 1, .atom 2, .atom 3, .atom 4] := (f1 0 (by decide)).1
  have h1 := (C101_map panic_is panic_few hr hend (i := 1) (by decide) rfl).1
  have h2 := (C101_filter panic_is panic_few hr hend (i := 2) (by decide) rfl).1
  rw [e1, e0] at h1
  rw [e2] at h2
  have h3 := h2.trans (h1.filter _)
  simp [num] at h3
  have h4 := f1 3 (by decide)
  change (m.hist 3).log = ((m.hist 3).ins 0).reverse.map .call ++ [.ret .unit] at h4
  rw [e3, h3] at h4
  simpa using h4

/-! ## Programs with operations that do not survive a panic -/

/-- Peek: what has been sent is what has been received; a panic is the last thing that happens. -/
def peekPInv (bad : Val α → Bool) : Option (FwdSt α) → Hist (Val α) (Ev α K) → Prop
  | some .loop, h => h.eof 0 = false ∧ h.closed 0 = false ∧ h.outs 0 = h.ins 0 ∧ h.log = (h.ins 0).map .call ∧ ∀ v ∈ h.ins 0, bad v = false
  | some (.send v), h => h.eof 0 = false ∧ h.closed 0 = false ∧ h.outs 0 ++ [v] = h.ins 0 ∧ h.log = (h.outs 0).map .call ∧ ∀ v ∈ h.outs 0, bad v = false
  | some (.call v), h => h.eof 0 = false ∧ h.closed 0 = false ∧ h.outs 0 = h.ins 0 ∧ ∃ xs, h.ins 0 = xs ++ [v] ∧ h.log = xs.map .call ∧ ∀ v ∈ xs, bad v = false
  | some .closing, h => h.eof 0 = true ∧ h.closed 0 = false ∧ h.outs 0 = h.ins 0 ∧ h.log = (h.ins 0).map .call ∧ ∀ v ∈ h.ins 0, bad v = false
  | some .done, h => h.eof 0 = true ∧ h.closed 0 = true ∧ h.outs 0 = h.ins 0 ∧ h.log = (h.ins 0).map .call ∧ ∀ v ∈ h.ins 0, bad v = false
  | none, h => h.eof 0 = false ∧ h.closed 0 = false ∧ h.outs 0 = h.ins 0 ∧
      ∃ xs v, h.ins 0 = xs ++ [v] ∧ h.log = xs.map .call ++ [.panic v] ∧ bad v = true ∧ ∀ v ∈ xs, bad v = false

theorem peekP_keeps (bad : Val α → Bool) (s : Option (FwdSt α)) (h : Hist (Val α) (Ev α K)) (hi : peekPInv bad s h) :
    (peekP bad).Keeps (peekPInv bad) h ((peekP bad).next s) := by
  rcases s with _ | s
  · trivial
  · cases s with
    | call v =>
      obtain ⟨h1, h2, h3, xs, h4, h5, h6⟩ := hi
      by_cases hb : bad v = true
      · simp only [peekP, panicky, peekS, panickyNext, peekNext, hb, if_true, Seq.Keeps]
        exact ⟨h1, h2, h3, xs, v, h4, by simp [Hist.add, h5], hb, h6⟩
      · simp only [peekP, panicky, peekS, panickyNext, peekNext, hb, Seq.Keeps]
        refine ⟨h1, h2, h3, by simp [Hist.add, h4, h5], ?_⟩
        intro w hw
        simp only [Hist.add, h4, List.mem_append, List.mem_singleton] at hw
        rcases hw with hw | rfl
        · exact h6 w hw
        · simpa using hb
    | loop => simp_all [peekPInv, peekP, panicky, peekS, panickyNext, peekNext, Seq.Keeps, Hist.add]
    | send v =>
      obtain ⟨h1, h2, h3, h4, h5⟩ := hi
      simp only [peekP, panicky, peekS, panickyNext, peekNext, Seq.Keeps]
      exact ⟨by simp, h2, h1, h2, by simpa [Hist.add] using h3, h.outs 0, h3.symm, h4, h5⟩
    | closing => simp_all [peekPInv, peekP, panicky, peekS, panickyNext, peekNext, Seq.Keeps, Hist.add]
    | done => trivial

theorem peekP_init (bad : Val α → Bool) : peekPInv bad (peekP (K := K) bad).init (Hist.empty : Hist (Val α) (Ev α K)) := by
  simp [peekPInv, peekP, panicky, peekS, Hist.empty]

theorem peekP_inv {bad : Val α → Bool} {C : Comp (Val α) (Ev α K)} (hC : C = (peekP bad).comp) {s : C.σ} {h : Hist (Val α) (Ev α K)} (hr : CReach C s h) :
    ∃ s', peekPInv bad s' h := by
  subst hC; exact ⟨s, Seq.keeps (peekP_init bad) (peekP_keeps bad) hr⟩

/-- Foreach. -/
def foreachPInv (bad : Val α → Bool) : Option (TermSt α K) → Hist (Val α) (Ev α K) → Prop
  | some .loop, h => h.eof 0 = false ∧ h.log = (h.ins 0).map .call ∧ ∀ v ∈ h.ins 0, bad v = false
  | some (.call v), h => h.eof 0 = false ∧ ∃ xs, h.ins 0 = xs ++ [v] ∧ h.log = xs.map .call ∧ ∀ v ∈ xs, bad v = false
  | some (.ret r), h => h.eof 0 = true ∧ r = .unit ∧ h.log = (h.ins 0).map .call ∧ ∀ v ∈ h.ins 0, bad v = false
  | some .drain, _ => False
  | some .done, h => h.eof 0 = true ∧ h.log = (h.ins 0).map .call ++ [.ret .unit] ∧ ∀ v ∈ h.ins 0, bad v = false
  | none, h => h.eof 0 = false ∧ ∃ xs v, h.ins 0 = xs ++ [v] ∧ h.log = xs.map .call ++ [.panic v] ∧ bad v = true ∧ ∀ v ∈ xs, bad v = false

theorem foreachP_keeps (bad : Val α → Bool) (s : Option (TermSt α K)) (h : Hist (Val α) (Ev α K)) (hi : foreachPInv bad s h) :
    (foreachP bad).Keeps (foreachPInv bad) h ((foreachP bad).next s) := by
  rcases s with _ | s
  · trivial
  · cases s with
    | call v =>
      obtain ⟨h1, xs, h4, h5, h6⟩ := hi
      by_cases hb : bad v = true
      · simp only [foreachP, panicky, foreachS, panickyNext, foreachNext, hb, if_true, Seq.Keeps]
        exact ⟨h1, xs, v, h4, by simp [Hist.add, h5], hb, h6⟩
      · simp only [foreachP, panicky, foreachS, panickyNext, foreachNext, hb, Seq.Keeps]
        refine ⟨h1, by simp [Hist.add, h4, h5], ?_⟩
        intro w hw
        simp only [Hist.add, h4, List.mem_append, List.mem_singleton] at hw
        rcases hw with hw | rfl
        · exact h6 w hw
        · simpa using hb
    | loop => simp_all [foreachPInv, foreachP, panicky, foreachS, panickyNext, foreachNext, Seq.Keeps, Hist.add]
    | ret r => simp_all [foreachPInv, foreachP, panicky, foreachS, panickyNext, foreachNext, Seq.Keeps, Hist.add]
    | drain => exact hi.elim
    | done => trivial

theorem foreachP_init (bad : Val α → Bool) : foreachPInv bad (foreachP (K := K) bad).init (Hist.empty : Hist (Val α) (Ev α K)) := by
  simp [foreachPInv, foreachP, panicky, foreachS, Hist.empty]

/-- How Distinct ends: at the end of its input, or at the first element whose key function panics. -/
def DistinctEnd [DecidableEq K] (f : Val α → Option K) (h : Hist (Val α) (Ev α K)) : Prop :=
  h.eof 0 = true ∧ h.outs 0 = firstPerKey f (h.ins 0) ∧ (∀ v ∈ h.ins 0, f v ≠ none) ∧ h.log = [] ∨
  h.eof 0 = false ∧ ∃ xs v, h.ins 0 = xs ++ [v] ∧ h.outs 0 = firstPerKey f xs ∧ (∀ v ∈ xs, f v ≠ none) ∧ f v = none ∧ h.log = [.panic v]

/-- Distinct: the first element of every key of what has been received before the panic. -/
def distinctPInv [DecidableEq K] (f : Val α → Option K) : DistinctPSt α K → Hist (Val α) (Ev α K) → Prop
  | .loop u, h => h.eof 0 = false ∧ h.closed 0 = false ∧ h.outs 0 = firstPerKey f (h.ins 0) ∧ (∀ k, k ∈ u ↔ ∃ x ∈ h.ins 0, f x = some k) ∧
      (∀ v ∈ h.ins 0, f v ≠ none) ∧ h.log = []
  | .send v k u, h => h.eof 0 = false ∧ h.closed 0 = false ∧ h.outs 0 ++ [v] = firstPerKey f (h.ins 0) ∧
      (∀ k', k' ∈ k :: u ↔ ∃ x ∈ h.ins 0, f x = some k') ∧ (∀ v ∈ h.ins 0, f v ≠ none) ∧ h.log = []
  | .panicking v, h => h.eof 0 = false ∧ h.closed 0 = false ∧ h.log = [] ∧ ∃ xs, h.ins 0 = xs ++ [v] ∧ h.outs 0 = firstPerKey f xs ∧ (∀ v ∈ xs, f v ≠ none) ∧ f v = none
  | .closing, h => h.closed 0 = false ∧ DistinctEnd f h
  | .done, h => h.closed 0 = true ∧ DistinctEnd f h

theorem distinctP_keeps [DecidableEq K] (f : Val α → Option K) (s : DistinctPSt α K) (h : Hist (Val α) (Ev α K)) (hi : distinctPInv f s h) :
    (distinctP f).Keeps (distinctPInv f) h ((distinctP f).next s) := by
  cases s with
  | loop u =>
    obtain ⟨h1, h2, h3, h4, h5, h6⟩ := hi
    refine ⟨by simp [distinctP], h1, fun v => ?_, ?_⟩
    · cases hf : f v with
      | none =>
        simp only [hf]
        exact ⟨h1, h2, h6, h.ins 0, by simp [Hist.add], h3, h5, hf⟩
      | some k =>
        have hk : (∃ x ∈ h.ins 0, f x = f v) ↔ k ∈ u := by rw [h4, hf]
        have h5' : ∀ w ∈ h.ins 0 ++ [v], f w ≠ none := by
          intro w hw
          rcases List.mem_append.mp hw with hw | hw
          · exact h5 w hw
          · simp [List.mem_singleton.mp hw, hf]
        by_cases hu : k ∈ u
        · simp only [hf, hu, if_true]
          refine ⟨h1, h2, ?_, fun k' => ?_, by simpa [Hist.add] using h5', h6⟩
          · simp [Hist.add, firstPerKey_snoc, h3, hk.mpr hu]
          · simp only [Hist.add, upd_self, List.mem_append, List.mem_singleton, h4]
            constructor
            · rintro ⟨x, hx, e⟩; exact ⟨x, .inl hx, e⟩
            · rintro ⟨x, hx | rfl, e⟩
              · exact ⟨x, hx, e⟩
              · rw [hf] at e; cases e; exact (h4 k).mp hu
        · simp only [hf, hu, if_false]
          refine ⟨h1, h2, ?_, fun k' => ?_, by simpa [Hist.add] using h5', h6⟩
          · have : ¬ ∃ x ∈ h.ins 0, f x = f v := fun e => hu (hk.mp e)
            simp only [Hist.add, upd_self]
            rw [firstPerKey_snoc, if_neg this, h3]
          · rw [List.mem_cons, h4]
            simp only [Hist.add, upd_self, List.mem_append, List.mem_singleton]
            constructor
            · rintro (rfl | ⟨x, hx, e⟩)
              · exact ⟨v, .inr rfl, hf⟩
              · exact ⟨x, .inl hx, e⟩
            · rintro ⟨x, hx | rfl, e⟩
              · exact .inr ⟨x, hx, e⟩
              · rw [hf] at e; cases e; exact .inl rfl
    · exact ⟨h2, .inl ⟨by simp [Hist.add], h3, h5, h6⟩⟩
  | send v k u =>
    obtain ⟨h1, h2, h3, h4, h5, h6⟩ := hi
    exact ⟨by simp [distinctP], h2, h1, h2, by simpa [Hist.add] using h3, h4, h5, h6⟩
  | panicking v =>
    obtain ⟨h1, h2, h3, xs, h4, h5, h6, h7⟩ := hi
    exact ⟨h2, .inr ⟨h1, xs, v, h4, h5, h6, h7, by simp [Hist.add, h3]⟩⟩
  | closing =>
    obtain ⟨h1, h2⟩ := hi
    exact ⟨by simp [distinctP], h1, by simp [Hist.add], h2⟩
  | done => trivial

theorem distinctP_init [DecidableEq K] (f : Val α → Option K) : distinctPInv f (distinctP f).init Hist.empty := by
  simp [distinctPInv, distinctP, Hist.empty, firstPerKey]


theorem send_safe (items : List (Val α)) (cap : SendSt α → Nat → Nat) {s : SendSt α} {h : Hist (Val α) (Ev α K)}
    (hr : CReach (Seq.comp ⟨SendSt α, 0, 1, .loop items, cap, SendSt.next⟩) s h) : sendInv items s h := by
  refine Seq.keeps (Inv := sendInv items) (by simp [sendInv, Hist.empty]) ?_ hr
  intro s h hi
  cases s with
  | done => trivial
  | loop rest => cases rest <;> simp_all [sendInv, SendSt.next, Seq.Keeps, Hist.add]

/-- A program some of whose functions panic. -/
structure IsPanicProgram [DecidableEq K] (N : Net (Val α) (Ev α K)) (node : Nat → PNode α K) : Prop where
  wf : N.WF
  built : ∀ i < N.n, (node i).Builds (N.comp i)
  valid : ∀ i < N.n, ∀ nd, node i = .node nd → nd.Valid

section
variable [DecidableEq K] {N : Net (Val α) (Ev α K)} {node : Nat → PNode α K}

theorem pnode_safe {pn : PNode α K} {C : Comp (Val α) (Ev α K)} (hb : pn.Builds C) (hv : ∀ nd, pn = .node nd → nd.Valid) : Safe lim C := by
  cases pn with
  | node nd => exact (node_good hb (hv nd rfl)).safe
  | peek bad => cases hb; exact Seq.safe (peekP_init bad) (peekP_keeps bad)
  | distinct f => cases hb; exact Seq.safe (distinctP_init f) (distinctP_keeps f)
  | foreach bad => cases hb; exact Seq.safe (foreachP_init bad) (foreachP_keeps bad)
  | mach bad want f => cases hb; exact Seq.safe (machP_init bad want f) (machP_keeps bad want f)
  | ordered bad => cases hb; exact Seq.safe (orderedP_init bad) (orderedP_keeps bad)
  | keyed f => cases hb; exact Seq.safe (keyedP_init f) (keyedP_keeps f)
  | sort => cases hb; exact Seq.safe sortP_init sortP_keeps

theorem IsPanicProgram.inv (hp : IsPanicProgram N node) (hf : FewValues N) {m : NState N} (hr : NReach N m) : NInv m :=
  inv_safe hp.wf hf (fun i hi => pnode_safe (hp.built i hi) (hp.valid i hi)) hr

/-- What a component has done, whatever network it is in. -/
theorem IsPanicProgram.at (hp : IsPanicProgram N node) (hf : FewValues N) {m : NState N} (hr : NReach N m) {i : Nat} (hi : i < N.n)
    {Q : Hist (Val α) (Ev α K) → Prop} (h : ∀ C, (node i).Builds C → ∀ s h, CReach C s h → Q h) : Q (m.hist i) :=
  h _ (hp.built i hi) _ _ ((hp.inv hf hr).reach i hi)

/-- C101: a panic of a user function does not crash the program, whichever operations panic: no goroutine ever closes a channel twice or sends on
a closed channel because of it. -/
theorem C101_no_crash (hp : IsPanicProgram N node) (hf : FewValues N) {m : NState N} (hr : NReach N m) : m.crashed = false := (hp.inv hf hr).ok

/-- C101, Peek: once it has received an element for which its function panics, it never closes its output, and its consumer never sees the end of
the stream. -/
theorem C101_peek (hp : IsPanicProgram N node) (hf : FewValues N) {m : NState N} (hr : NReach N m) {i : Nat} (hi : i < N.n) {bad : Val α → Bool}
    (hn : node i = .peek bad) (hbad : ∃ v ∈ (m.hist i).ins 0, bad v = true) :
    m.closed i 0 = false ∧ (m.hist (N.dst i 0).1).eof (N.dst i 0).2 = false := by
  have hinv := hp.inv hf hr
  have hq : 0 < (N.comp i).nout := by
    have := hp.built i hi
    rw [hn] at this
    rw [show N.comp i = _ from this]; exact Nat.one_pos
  have h1 : m.closed i 0 = false := by
    rw [hinv.cl i hi 0 hq]
    refine hp.at hf hr hi (Q := fun h => (∃ v ∈ h.ins 0, bad v = true) → h.closed 0 = false) ?_ hbad
    rw [hn]
    rintro C rfl s h hr ⟨v, hv, hb⟩
    have := Seq.keeps (peekP_init bad) (peekP_keeps bad) hr
    rcases s with _ | s
    · exact this.2.1
    · cases s with
      | done => have := this.2.2.2.2 v hv; rw [hb] at this; simp at this
      | _ => exact this.2.1
  refine ⟨h1, ?_⟩
  by_contra h
  rw [Bool.not_eq_false] at h
  have := (hinv.eofs i hi 0 hq h).1
  rw [h1] at this; simp at this

/-- C101, Distinct: when its output has been closed, it has handled the whole stream, or it has stopped at the first element for which its key
function panics: its consumer sees the end of the stream after the elements before that one. -/
theorem C101_distinct (hp : IsPanicProgram N node) (hf : FewValues N) {m : NState N} (hr : NReach N m) {i : Nat} (hi : i < N.n) {f : Val α → Option K}
    (hn : node i = .distinct f) (hcl : m.closed i 0 = true) :
    (m.hist i).eof 0 = true ∧ (∀ v ∈ (m.hist i).ins 0, f v ≠ none) ∧ (m.hist i).outs 0 = firstPerKey f ((m.hist i).ins 0) ∨
    ∃ xs v, (m.hist i).ins 0 = xs ++ [v] ∧ (∀ x ∈ xs, f x ≠ none) ∧ f v = none ∧ (m.hist i).outs 0 = firstPerKey f xs ∧ (m.hist i).log = [.panic v] := by
  have hinv := hp.inv hf hr
  have hq : 0 < (N.comp i).nout := by
    have := hp.built i hi
    rw [hn] at this
    rw [show N.comp i = _ from this]; exact Nat.one_pos
  rw [hinv.cl i hi 0 hq] at hcl
  have := hp.at hf hr hi (Q := fun h => h.closed 0 = true → DistinctEnd f h) (by
    rw [hn]
    rintro C rfl s h hr hc
    have := Seq.keeps (distinctP_init f) (distinctP_keeps f) hr
    cases s with
    | done => exact this.2
    | loop u => rw [this.2.1] at hc; simp at hc
    | send v k u => rw [this.2.1] at hc; simp at hc
    | panicking v => rw [this.2.1] at hc; simp at hc
    | closing => exact this.2) hcl
  rcases this with ⟨a, b, c, _⟩ | ⟨_, xs, v, a, b, c, d, e⟩
  · exact .inl ⟨a, c, b⟩
  · exact .inr ⟨xs, v, a, c, d, b, e⟩

/-- C101, Foreach: the elements are handled in order until one for which the function panics: that is the last thing that happens, the panic reaches
the caller, Foreach does not return. -/
theorem C101_foreach (hp : IsPanicProgram N node) (hf : FewValues N) {m : NState N} (hr : NReach N m) {i : Nat} (hi : i < N.n) {bad : Val α → Bool}
    (hn : node i = .foreach bad) (hbad : ∃ v ∈ (m.hist i).ins 0, bad v = true) :
    ∃ xs v, (m.hist i).ins 0 = xs ++ [v] ∧ (∀ x ∈ xs, bad x = false) ∧ bad v = true ∧
      ((m.hist i).log = xs.map .call ∨ (m.hist i).log = xs.map .call ++ [.panic v]) := by
  refine hp.at hf hr hi (Q := fun h => (∃ v ∈ h.ins 0, bad v = true) → ∃ xs v, h.ins 0 = xs ++ [v] ∧ (∀ x ∈ xs, bad x = false) ∧ bad v = true ∧
      (h.log = xs.map .call ∨ h.log = xs.map .call ++ [.panic v])) ?_ hbad
  rw [hn]
  rintro C rfl s h hr ⟨v, hv, hb⟩
  have := Seq.keeps (foreachP_init bad) (foreachP_keeps bad) hr
  rcases s with _ | s
  · obtain ⟨_, xs, w, h1, h2, h3, h4⟩ := this
    exact ⟨xs, w, h1, h4, h3, .inr h2⟩
  · cases s with
    | loop => have := this.2.2 v hv; rw [hb] at this; simp at this
    | call w =>
      obtain ⟨_, xs, h1, h2, h3⟩ := this
      have hw : v = w := by
        rw [h1, List.mem_append, List.mem_singleton] at hv
        rcases hv with hv | hv
        · have := h3 v hv; rw [hb] at this; simp at this
        · exact hv
      subst hw
      exact ⟨xs, v, h1, h3, hb, .inl h2⟩
    | ret r => have := this.2.2.2 v hv; rw [hb] at this; simp at this
    | drain => exact this.elim
    | done => have := this.2.2 v hv; rw [hb] at this; simp at this

/-! ## Pipelines -/

omit [DecidableEq K] in
theorem buf_nil {i q : Nat} (hc : ∀ s, (N.comp i).cap s q = 0) {m : NState N} (hr : NReach N m) : m.buf i q = [] := by
  induction hr with
  | init => rfl
  | step _ hs ih =>
    cases hs with
    | send i' q' v s' _ _ _ _ hl =>
      by_cases e : i = i' ∧ q = q'
      · obtain ⟨rfl, rfl⟩ := e; rw [hc] at hl; omega
      · simpa [upd2, e] using ih
    | recv i' p v vs s' _ _ _ hb =>
      by_cases e : i = (N.src i' p).1 ∧ q = (N.src i' p).2
      · rw [← e.1, ← e.2, ih] at hb; simp at hb
      · simpa [upd2, e] using ih
    | _ => exact ih

omit [DecidableEq K] in
/-- A chain is a network. -/
theorem chain_wf (C0 : Comp (Val α) (Ev α K)) (cs : List (Comp (Val α) (Ev α K))) (Ct : Comp (Val α) (Ev α K)) (h0 : C0.nin = 0 ∧ C0.nout = 1)
    (hc : ∀ C ∈ cs, C.nin = 1 ∧ C.nout = 1) (ht : Ct.nin = 1 ∧ Ct.nout = 0) : (pipe (C0 :: cs ++ [Ct])).WF := by
  have p0 : (pipe (C0 :: cs ++ [Ct])).comp 0 = C0 := rfl
  have p1 : ∀ (i : Nat) (h : i < cs.length), (pipe (C0 :: cs ++ [Ct])).comp (i + 1) = cs[i] := by
    intro i h
    simp [pipe, List.getD_eq_getElem?_getD, List.getElem?_append_left h, List.getElem?_eq_getElem h]
  have p2 : (pipe (C0 :: cs ++ [Ct])).comp (cs.length + 1) = Ct := by simp [pipe, List.getD_eq_getElem?_getD]
  have hn : (pipe (C0 :: cs ++ [Ct])).n = cs.length + 2 := by simp [pipe]
  have cases3 : ∀ i < cs.length + 2, i = 0 ∨ (∃ j, ∃ h : j < cs.length, i = j + 1) ∨ i = cs.length + 1 := by
    intro i hi
    rcases Nat.eq_zero_or_pos i with h | h
    · exact .inl h
    · by_cases h2 : i = cs.length + 1
      · exact .inr (.inr h2)
      · exact .inr (.inl ⟨i - 1, by omega, by omega⟩)
  have nout1 : ∀ i < cs.length + 1, ((pipe (C0 :: cs ++ [Ct])).comp i).nout = 1 := by
    intro i hi
    rcases cases3 i (by omega) with rfl | ⟨j, hj, rfl⟩ | rfl
    · rw [p0]; exact h0.2
    · rw [p1 j hj]; exact (hc _ (by simp)).2
    · omega
  have nin1 : ∀ i, 0 < i → i < cs.length + 2 → ((pipe (C0 :: cs ++ [Ct])).comp i).nin = 1 := by
    intro i h0 hi
    rcases cases3 i (by omega) with rfl | ⟨j, hj, rfl⟩ | rfl
    · omega
    · rw [p1 j hj]; exact (hc _ (by simp)).1
    · rw [p2]; exact ht.1
  refine ⟨?_, ?_⟩
  · rw [hn]
    intro i hi p hp
    have h0 : i ≠ 0 := by rintro rfl; rw [p0, h0.1] at hp; omega
    rw [nin1 i (by omega) hi] at hp
    refine ⟨?_, ?_, ?_⟩
    · show i - 1 < i; omega
    · show 0 < _
      rw [show ((pipe (C0 :: cs ++ [Ct])).src i p).1 = i - 1 from rfl, nout1 _ (by omega)]; omega
    · show (i - 1 + 1, 0) = (i, p)
      rw [show i - 1 + 1 = i by omega, show p = 0 by omega]
  · rw [hn]
    intro i hi q hq
    have h0 : i ≠ cs.length + 1 := by rintro rfl; rw [p2, ht.2] at hq; omega
    rw [nout1 i (by omega)] at hq
    refine ⟨?_, ?_, ?_⟩
    · show i + 1 < _; omega
    · show 0 < _
      rw [show ((pipe (C0 :: cs ++ [Ct])).dst i q).1 = i + 1 from rfl, nin1 _ (by omega) (by omega)]; omega
    · show (i + 1 - 1, 0) = (i, q)
      rw [show q = 0 by omega]; rfl

omit [DecidableEq K] in
/-- A chain of operations that send no more than they receive carries few values. -/
theorem chain_few (C0 : Comp (Val α) (Ev α K)) (cs : List (Comp (Val α) (Ev α K))) (Ct : Comp (Val α) (Ev α K)) (h0 : C0.nin = 0 ∧ C0.nout = 1)
    (hc : ∀ C ∈ cs, C.nin = 1 ∧ C.nout = 1) (ht : Ct.nin = 1 ∧ Ct.nout = 0) (hs0 : Safe lim C0) (hsc : ∀ C ∈ cs, Safe lim C) (hst : Safe lim Ct) {n : Nat}
    (hn : n < 2 ^ 63) (g0 : ∀ s h, CReach C0 s h → (h.outs 0).length ≤ n) (gc : ∀ C ∈ cs, ∀ s h, CReach C s h → (h.outs 0).length ≤ (h.ins 0).length) :
    FewValues (pipe (C0 :: cs ++ [Ct])) := by
  have p0 : (pipe (C0 :: cs ++ [Ct])).comp 0 = C0 := rfl
  have p1 : ∀ (i : Nat) (h : i < cs.length), (pipe (C0 :: cs ++ [Ct])).comp (i + 1) = cs[i] := by
    intro i h
    simp [pipe, List.getD_eq_getElem?_getD, List.getElem?_append_left h, List.getElem?_eq_getElem h]
  have p2 : (pipe (C0 :: cs ++ [Ct])).comp (cs.length + 1) = Ct := by simp [pipe, List.getD_eq_getElem?_getD]
  have hn' : (pipe (C0 :: cs ++ [Ct])).n = cs.length + 2 := by simp [pipe]
  have cases3 : ∀ i < cs.length + 2, i = 0 ∨ (∃ j, ∃ h : j < cs.length, i = j + 1) ∨ i = cs.length + 1 := by
    intro i hi
    rcases Nat.eq_zero_or_pos i with h | h
    · exact .inl h
    · by_cases h2 : i = cs.length + 1
      · exact .inr (.inr h2)
      · exact .inr (.inl ⟨i - 1, by omega, by omega⟩)
  refine small_of_safe (lim := lim) (b := fun _ _ => n) (chain_wf C0 cs Ct h0 hc ht) ⟨fun _ _ _ _ => hn, ?_⟩ ?_
  · intro i hi s h hr _ hin q hq
    rcases cases3 i (by omega) with rfl | ⟨j, hj, rfl⟩ | rfl
    · rw [p0, h0.2] at hq
      rw [show q = 0 by omega]
      exact g0 s h hr
    · have key : ∀ C : Comp (Val α) (Ev α K), C = cs[j] → ∀ s h, CReach C s h → (h.outs 0).length ≤ (h.ins 0).length := by
        rintro C rfl; exact gc _ (by simp)
      have hq' := hq
      rw [p1 j hj, (hc _ (by simp)).2] at hq'
      rw [show q = 0 by omega]
      refine Nat.le_trans (key _ (p1 j hj) s h hr) (hin 0 ?_)
      rw [p1 j hj, (hc _ (by simp)).1]; omega
    · rw [p2, ht.2] at hq; omega
  · intro i hi
    rcases cases3 i (by omega) with rfl | ⟨j, hj, rfl⟩ | rfl
    · exact hs0
    · rw [p1 j hj]; exact hsc _ (by simp)
    · rw [p2]; exact hst

omit [DecidableEq K] in
theorem source_reach (src : Source α) {C : Comp (Val α) (Ev α K)} (hC : C = src.comp) {s : C.σ} {h : Hist (Val α) (Ev α K)} (hr : CReach C s h) :
    ∃ s', sendInv src.items s' h := by
  subst hC; cases src <;> exact ⟨s, send_safe _ _ hr⟩

theorem foreach_reach {C : Comp (Val α) (Ev α K)} (hC : C = (Term.foreach : Term α K).comp) {s : C.σ} {h : Hist (Val α) (Ev α K)} (hr : CReach C s h) :
    ∃ s', foreachInv s' h := by
  subst hC
  refine ⟨s, Seq.keeps (P := foreachS) (Inv := foreachInv) (by simp [foreachInv, foreachS, Hist.empty]) ?_ hr⟩
  intro s h hi
  cases s <;> simp_all [foreachInv, foreachS, foreachNext, Seq.Keeps, Hist.add]

omit [DecidableEq K] in
theorem peekP_grows (bad : Val α → Bool) (s : (peekP (K := K) bad).comp.σ) (h : Hist (Val α) (Ev α K)) (hr : CReach (peekP bad).comp s h) :
    (h.outs 0).length ≤ (h.ins 0).length := by
  have := Seq.keeps (peekP_init bad) (peekP_keeps bad) hr
  rcases s with _ | s
  · exact Nat.le_of_eq (congrArg List.length this.2.2.1)
  · cases s <;> (have hl := congrArg List.length this.2.2.1; (try simp at hl); omega)

theorem distinctP_grows (f : Val α → Option K) (s : (distinctP f).comp.σ) (h : Hist (Val α) (Ev α K)) (hr : CReach (distinctP f).comp s h) :
    (h.outs 0).length ≤ (h.ins 0).length := by
  have := Seq.keeps (distinctP_init f) (distinctP_keeps f) hr
  have e : DistinctEnd f h → (h.outs 0).length ≤ (h.ins 0).length := by
    rintro (⟨_, h1, _⟩ | ⟨_, xs, v, h1, h2, _⟩)
    · rw [h1]; exact firstPerKey_length f _
    · rw [h1, h2]; have := firstPerKey_length f xs; simp; omega
  cases s with
  | loop u => rw [this.2.2.1]; exact firstPerKey_length f _
  | send v k u => have h1 := congrArg List.length this.2.2.1; have := firstPerKey_length f (h.ins 0); simp at h1; omega
  | panicking v => obtain ⟨_, _, _, xs, h1, h2, _⟩ := this; rw [h1, h2]; have := firstPerKey_length f xs; simp; omega
  | closing => exact e this.2
  | done => exact e this.2

/-! ### From(items).Peek(…).Foreach(…) -/

/-- The program: a source, `Peek` (xstream.go:589-601) with a function that can panic, and an operation that ends the stream. -/
def peekNodes (src : Source α) (bad : Val α → Bool) : Nat → PNode α K
  | 0 => .node (.source src)
  | 1 => .peek bad
  | _ => .node (.term .foreach)

theorem peek_is (src : Source α) (bad : Val α → Bool) : IsPanicProgram (K := K) (peekProgram src bad) (peekNodes src bad) := by
  refine ⟨chain_wf _ [_] _ (source_shape src) (by simp [peekP, panicky, peekS, Seq.comp]) (term_shape _), ?_, ?_⟩
  · intro i hi
    have hi : i < 3 := hi
    rcases i with _ | _ | _ | i
    · rfl
    · rfl
    · rfl
    · omega
  · intro i hi nd e
    rcases i with _ | _ | i <;> simp [peekNodes] at e <;> subst e <;> trivial

theorem peek_few (src : Source α) (bad : Val α → Bool) (hlen : src.items.length < 2 ^ 63) : FewValues (peekProgram (K := K) src bad) := by
  refine chain_few _ [_] _ (source_shape src) (by simp [peekP, panicky, peekS, Seq.comp]) (term_shape _) ?_ ?_ ?_ hlen ?_ ?_
  · exact pnode_safe (pn := .node (.source src)) rfl (by rintro nd ⟨⟩; trivial)
  · simp only [List.mem_singleton]; rintro C rfl; exact pnode_safe (pn := .peek bad) rfl (by rintro nd ⟨⟩)
  · exact pnode_safe (pn := .node (.term .foreach)) rfl (by rintro nd ⟨⟩; trivial)
  · intro s h hr
    obtain ⟨s', hs⟩ := source_reach src rfl hr
    cases s' with
    | done => exact Nat.le_of_eq (congrArg List.length hs.2.1)
    | loop rest => have := congrArg List.length hs.2.1; simp at this; omega
  · simp only [List.mem_singleton]; rintro C rfl s h hr; exact peekP_grows bad s h hr

/-- Foreach has returned only if its input has ended. -/
theorem foreach_returned {C : Comp (Val α) (Ev α K)} (hC : C = (Term.foreach : Term α K).comp) {s : C.σ} {h : Hist (Val α) (Ev α K)} (hr : CReach C s h) {r : Ret α K}
    (hm : Ev.ret r ∈ h.log) : h.eof 0 = true ∧ h.log = (h.ins 0).map .call ++ [.ret .unit] := by
  obtain ⟨s', hs⟩ := foreach_reach hC hr
  cases s' with
  | loop => rw [hs.2] at hm; simp at hm
  | call v =>
    have : Ev.ret r ∈ (h.ins 0).map .call := by rw [← hs.2]; exact List.mem_append_left _ hm
    simp at this
  | ret r' => rw [hs.2.2] at hm; simp at hm
  | drain => exact hs.elim
  | done => exact hs

/-- C101 fails for Peek: if its function panics for one of the elements of the stream, then From(items).Peek(fn).Foreach(…) never returns, in no
execution: the consumer waits for ever for a channel that nobody closes. -/
theorem C101_peek_refuted (src : Source α) (bad : Val α → Bool) (hlen : src.items.length < 2 ^ 63) (hbad : ∃ v ∈ src.items, bad v = true)
    {m : NState (peekProgram (K := K) src bad)} (hr : NReach _ m) : ∀ r, Ev.ret r ∉ (m.hist 2).log := by
  intro r hret
  have hp := peek_is (K := K) src bad
  have hf := peek_few (K := K) src bad hlen
  have hinv := hp.inv hf hr
  have h2 : (m.hist 2).eof 0 = true := hp.at hf hr (i := 2) (by decide : 2 < 3) (Q := fun h => Ev.ret r ∈ h.log → h.eof 0 = true)
    (fun C hC s h hr hm => (foreach_returned hC hr hm).1) hret
  have hc1 : m.closed 1 0 = true := (hinv.eofs 1 (by decide : 1 < 3) 0 (by decide : 0 < 1) h2).1
  rw [hinv.cl 1 (by decide : 1 < 3) 0 (by decide : 0 < 1)] at hc1
  obtain ⟨h1, h1'⟩ : (m.hist 1).eof 0 = true ∧ ∀ v ∈ (m.hist 1).ins 0, bad v = false := by
    refine hp.at hf hr (i := 1) (by decide : 1 < 3) (Q := fun h => h.closed 0 = true → h.eof 0 = true ∧ ∀ v ∈ h.ins 0, bad v = false) ?_ hc1
    rintro C rfl s h hr hc
    have := Seq.keeps (peekP_init bad) (peekP_keeps bad) hr
    rcases s with _ | s
    · rw [this.2.1] at hc; simp at hc
    · cases s with
      | done => exact ⟨this.1, this.2.2.2.2⟩
      | _ => rw [this.2.1] at hc; simp at hc
  obtain ⟨hc0, hb0⟩ := hinv.eofs 0 (by decide : 0 < 3) 0 (by rw [show (peekProgram src bad).comp 0 = src.comp from rfl, (source_shape src).2]; decide) h1
  have hch := hinv.chan 0 (by decide : 0 < 3) 0 (by rw [show (peekProgram src bad).comp 0 = src.comp from rfl, (source_shape src).2]; decide)
  rw [hinv.cl 0 (by decide : 0 < 3) 0 (by rw [show (peekProgram src bad).comp 0 = src.comp from rfl, (source_shape src).2]; decide)] at hc0
  rw [hb0, List.append_nil] at hch
  have hi : (m.hist 0).outs 0 = src.items := by
    refine hp.at hf hr (i := 0) (by decide : 0 < 3) (Q := fun h => h.closed 0 = true → h.outs 0 = src.items) ?_ hc0
    intro C hC s h hr hc
    obtain ⟨s', hs⟩ := source_reach src hC hr
    cases s' with
    | done => exact hs.2.1
    | loop rest => rw [hs.1] at hc; simp at hc
  obtain ⟨v, hv, hb⟩ := hbad
  have := h1' v (by rw [← hi, hch] at hv; exact hv)
  rw [hb] at this; simp at this

/-! ### From(items).Distinct(f).Foreach(…) -/

/-- The program: a source, `Distinct` (xstream.go:135-151) with a key function that can panic, and an operation that ends the stream. -/
def distinctNodes (src : Source α) (f : Val α → Option K) : Nat → PNode α K
  | 0 => .node (.source src)
  | 1 => .distinct f
  | _ => .node (.term .foreach)

theorem distinct_is (src : Source α) (f : Val α → Option K) : IsPanicProgram (distinctProgram src f) (distinctNodes src f) := by
  refine ⟨chain_wf _ [_] _ (source_shape src) (by simp [distinctP, Seq.comp]) (term_shape _), ?_, ?_⟩
  · intro i hi
    have hi : i < 3 := hi
    rcases i with _ | _ | _ | i
    · rfl
    · rfl
    · rfl
    · omega
  · intro i hi nd e
    rcases i with _ | _ | i <;> simp [distinctNodes] at e <;> subst e <;> trivial

omit [DecidableEq K] in
theorem source_few (src : Source α) (s : (src.comp (K := K)).σ) (h : Hist (Val α) (Ev α K)) (hr : CReach src.comp s h) : (h.outs 0).length ≤ src.items.length := by
  obtain ⟨s', hs⟩ := source_reach src rfl hr
  cases s' with
  | done => exact Nat.le_of_eq (congrArg List.length hs.2.1)
  | loop rest => have := congrArg List.length hs.2.1; simp at this; omega

theorem distinct_few (src : Source α) (f : Val α → Option K) (hlen : src.items.length < 2 ^ 63) : FewValues (distinctProgram src f) := by
  refine chain_few _ [_] _ (source_shape src) (by simp [distinctP, Seq.comp]) (term_shape _) ?_ ?_ ?_ hlen (source_few src) ?_
  · exact pnode_safe (pn := .node (.source src)) rfl (by rintro nd ⟨⟩; trivial)
  · simp only [List.mem_singleton]; rintro C rfl; exact pnode_safe (pn := .distinct f) rfl (by rintro nd ⟨⟩)
  · exact pnode_safe (pn := .node (.term .foreach)) rfl (by rintro nd ⟨⟩; trivial)
  · simp only [List.mem_singleton]; rintro C rfl s h hr; exact distinctP_grows f s h hr

theorem split_unique {A : Type} {p : A → Prop} : ∀ {xs ys xs' ys' : List A} {v v' : A}, xs ++ v :: ys = xs' ++ v' :: ys' → (∀ x ∈ xs, ¬ p x) → p v →
    (∀ x ∈ xs', ¬ p x) → p v' → xs = xs' ∧ v = v' ∧ ys = ys'
  | [], _, [], _, _, _, e, _, _, _, _ => by simp at e; simp [e]
  | [], _, _ :: _, _, _, _, e, _, h2, h3, _ => by simp at e; exact absurd h2 (e.1 ▸ h3 _ (by simp))
  | _ :: _, _, [], _, _, _, e, h1, _, _, h4 => by simp at e; exact absurd h4 (e.1 ▸ h1 _ (by simp))
  | x :: xs, ys, x' :: xs', ys', v, v', e, h1, h2, h3, h4 => by
    simp only [List.cons_append, List.cons.injEq] at e
    obtain ⟨rfl, e⟩ := e
    obtain ⟨rfl, rfl, rfl⟩ := split_unique e (fun y hy => h1 y (by simp [hy])) h2 (fun y hy => h3 y (by simp [hy])) h4
    exact ⟨rfl, rfl, rfl⟩

/-- The elements received so far are a prefix of those of the source. -/
theorem received_prefix {src : Source α} (hp : IsPanicProgram N node) (hf : FewValues N) {m : NState N} (hr : NReach N m) (h0 : 0 < N.n)
    (hnode : node 0 = .node (.source src)) (hd : N.dst 0 0 = (1, 0)) :
    (m.hist 1).ins 0 <+: src.items ∧ (m.closed 0 0 = true → (m.hist 1).ins 0 ++ m.buf 0 0 = src.items) := by
  have hinv := hp.inv hf hr
  have hC : N.comp 0 = src.comp := by have := hp.built 0 h0; rw [hnode] at this; exact this
  have hq : 0 < (N.comp 0).nout := by rw [hC, (source_shape src).2]; decide
  have hch := hinv.chan 0 h0 0 hq
  rw [hd] at hch
  obtain ⟨s', hs⟩ := source_reach src hC (hinv.reach 0 h0)
  have hcl := hinv.cl 0 h0 0 hq
  cases s' with
  | done => rw [hs.2.1] at hch; exact ⟨⟨_, hch.symm⟩, fun _ => hch.symm⟩
  | loop rest =>
    refine ⟨⟨m.buf 0 0 ++ rest, by rw [← List.append_assoc, ← hch]; exact hs.2.1⟩, fun h => ?_⟩
    rw [hcl, hs.1] at h; simp at h

/-- C101 fails for Distinct: let `v` be the first element whose key function panics. If From(items).Distinct(f).Foreach(…) returns, it has handled
only elements before `v`, without any sign that the stream was not complete; and if the source is a generator with elements after `v`, its
goroutine never ends. -/
theorem C101_distinct_refuted (src : Source α) (f : Val α → Option K) (hlen : src.items.length < 2 ^ 63) {xs ys : List (Val α)} {v : Val α}
    (hitems : src.items = xs ++ v :: ys) (hxs : ∀ x ∈ xs, f x ≠ none) (hv : f v = none) {m : NState (distinctProgram src f)} (hr : NReach _ m) :
    (∀ r, Ev.ret r ∈ (m.hist 2).log → (m.hist 2).log = (firstPerKey f xs).map .call ++ [.ret .unit]) ∧
    (∀ items, src = .gen items → ys ≠ [] → m.closed 0 0 = false) := by
  have hp := distinct_is src f
  have hf := distinct_few src f hlen
  have hinv := hp.inv hf hr
  obtain ⟨⟨zs, hpre⟩, hcl0⟩ := received_prefix (src := src) hp hf hr (by decide : 0 < 3) rfl rfl
  have hins : ∀ a w b, (m.hist 1).ins 0 = a ++ w :: b → (∀ x ∈ a, f x ≠ none) → f w = none → a = xs ∧ w = v := by
    intro a w b h1 h2 h3
    have e : a ++ w :: (b ++ zs) = xs ++ v :: ys := by rw [← hitems, ← hpre, h1]; simp
    obtain ⟨e1, e2, _⟩ := split_unique (p := fun x => f x = none) e h2 h3 hxs hv
    exact ⟨e1, e2⟩
  refine ⟨fun r hret => ?_, fun items hsrc hys => ?_⟩
  · obtain ⟨h2, hlog⟩ := hp.at hf hr (i := 2) (by decide : 2 < 3) (Q := fun h => Ev.ret r ∈ h.log → h.eof 0 = true ∧ h.log = (h.ins 0).map .call ++ [.ret .unit])
      (fun C hC s h hr hm => foreach_returned hC hr hm) hret
    obtain ⟨hc1, hb1⟩ := hinv.eofs 1 (by decide : 1 < 3) 0 (by decide : 0 < 1) h2
    have hch : (m.hist 1).outs 0 = (m.hist 2).ins 0 ++ m.buf 1 0 := hinv.chan 1 (by decide : 1 < 3) 0 (by decide : 0 < 1)
    rw [hb1, List.append_nil] at hch
    rcases C101_distinct hp hf hr (i := 1) (by decide : 1 < 3) rfl hc1 with ⟨h3, h4, h5⟩ | ⟨a, w, h3, h4, h5, h6, _⟩
    · exfalso
      have hq : 0 < ((distinctProgram src f).comp 0).nout := by rw [show (distinctProgram src f).comp 0 = src.comp from rfl, (source_shape src).2]; decide
      obtain ⟨hc0, hb0⟩ := hinv.eofs 0 (by decide : 0 < 3) 0 hq h3
      have := hcl0 hc0
      rw [hb0, List.append_nil, hitems] at this
      exact h4 v (by rw [this]; simp) hv
    · obtain ⟨rfl, rfl⟩ := hins a w [] h3 h4 h5
      rw [hlog, ← hch, h6]
  · subst hsrc
    by_contra hc
    rw [Bool.not_eq_false] at hc
    have h1 := hcl0 hc
    have hb : m.buf 0 0 = [] := buf_nil (N := distinctProgram (.gen items) f) (fun _ => rfl) hr
    rw [hb, List.append_nil, hitems] at h1
    refine hp.at hf hr (i := 1) (by decide : 1 < 3) (Q := fun h => ∀ a w b, h.ins 0 = a ++ w :: b → f w = none → b = []) ?_ _ _ _ h1 hv |> hys
    rintro C rfl s h hr a w b e hw
    have hst := Seq.keeps (distinctP_init f) (distinctP_keeps f) hr
    have key : ∀ {us : List (Val α)} {u : Val α}, h.ins 0 = us ++ [u] → (∀ x ∈ us, f x ≠ none) → b = [] := by
      intro us u h1 h2
      rcases List.eq_nil_or_concat b with rfl | ⟨b', z, rfl⟩
      · rfl
      · exfalso
        rw [e, show a ++ w :: b'.concat z = (a ++ w :: b') ++ [z] by simp] at h1
        have := (List.append_inj' h1 rfl).1
        exact h2 w (by rw [← this]; simp) hw
    have all : (∀ x ∈ h.ins 0, f x ≠ none) → b = [] := fun h2 => absurd hw (h2 w (by rw [e]; simp))
    have ending : DistinctEnd f h → b = [] := by
      rintro (⟨_, _, h1, _⟩ | ⟨_, us, u, h1, _, h2, _⟩)
      · exact all h1
      · exact key h1 h2
    cases s with
    | loop u => exact all hst.2.2.2.2.1
    | send v k u => exact all hst.2.2.2.2.1
    | panicking u => obtain ⟨_, _, _, us, h1, _, h2, _⟩ := hst; exact key h1 h2
    | closing => exact ending hst.2
    | done => exact ending hst.2

/-! ### From(items).Foreach(…) -/

/-- The program: a source and `Foreach` (xstream.go:346-350) with a function that can panic. -/
def foreachNodes (src : Source α) (bad : Val α → Bool) : Nat → PNode α K
  | 0 => .node (.source src)
  | _ => .foreach bad

theorem foreach_is (src : Source α) (bad : Val α → Bool) : IsPanicProgram (K := K) (foreachProgram src bad) (foreachNodes src bad) := by
  refine ⟨chain_wf _ [] _ (source_shape src) (by simp) (by simp [foreachP, panicky, foreachS, Seq.comp]), ?_, ?_⟩
  · intro i hi
    have hi : i < 2 := hi
    rcases i with _ | _ | i
    · rfl
    · rfl
    · omega
  · intro i hi nd e
    rcases i with _ | i <;> simp [foreachNodes] at e
    subst e; trivial

theorem foreach_few (src : Source α) (bad : Val α → Bool) (hlen : src.items.length < 2 ^ 63) : FewValues (foreachProgram (K := K) src bad) := by
  refine chain_few _ [] _ (source_shape src) (by simp) (by simp [foreachP, panicky, foreachS, Seq.comp]) ?_ (by simp) ?_ hlen (source_few src) (by simp)
  · exact pnode_safe (pn := .node (.source src)) rfl (by rintro nd ⟨⟩; trivial)
  · exact pnode_safe (pn := .foreach bad) rfl (by rintro nd ⟨⟩)

/-- C101 fails for Foreach: let `v` be the first element for which its function panics. From(items).Foreach(fn) calls `fn` for the elements before
`v` only and does not return normally; if the source is a generator with elements after `v`, its goroutine never ends. -/
theorem C101_foreach_refuted (src : Source α) (bad : Val α → Bool) (hlen : src.items.length < 2 ^ 63) {xs ys : List (Val α)} {v : Val α}
    (hitems : src.items = xs ++ v :: ys) (hxs : ∀ x ∈ xs, bad x = false) (hv : bad v = true) {m : NState (foreachProgram (K := K) src bad)} (hr : NReach _ m) :
    (m.hist 1).log <+: xs.map .call ++ [.panic v] ∧ (∀ items, src = .gen items → ys ≠ [] → m.closed 0 0 = false) := by
  have hp := foreach_is (K := K) src bad
  have hf := foreach_few (K := K) src bad hlen
  have hinv := hp.inv hf hr
  obtain ⟨⟨zs, hpre⟩, hcl0⟩ := received_prefix (src := src) hp hf hr (by decide : 0 < 2) rfl rfl
  by_cases hbad : ∃ v ∈ (m.hist 1).ins 0, bad v = true
  · obtain ⟨a, w, h1, h2, h3, h4⟩ := C101_foreach hp hf hr (i := 1) (by decide : 1 < 2) rfl hbad
    have e : a ++ w :: zs = xs ++ v :: ys := by rw [← hitems, ← hpre, h1]; simp
    obtain ⟨rfl, rfl, rfl⟩ := split_unique (p := fun x => bad x = true) e (by simpa using h2) h3 (by simpa using hxs) hv
    refine ⟨?_, fun items hsrc hys => ?_⟩
    · rcases h4 with h4 | h4 <;> rw [h4]
      · exact ⟨_, rfl⟩
      · exact List.prefix_refl _
    · subst hsrc
      by_contra hc
      rw [Bool.not_eq_false] at hc
      have h5 := hcl0 hc
      have hb : m.buf 0 0 = [] := buf_nil (N := foreachProgram (.gen items) bad) (fun _ => rfl) hr
      rw [hb, List.append_nil, h1, hitems] at h5
      have := (List.append_cancel_left h5)
      simp at this
      exact hys this
  · have hgood : ∀ x ∈ (m.hist 1).ins 0, bad x = false := by
      intro x hx
      cases h : bad x with
      | false => rfl
      | true => exact absurd ⟨x, hx, h⟩ hbad
    have hnot : v ∉ (m.hist 1).ins 0 := fun h => by have := hgood v h; rw [hv] at this; simp at this
    have hpx : (m.hist 1).ins 0 <+: xs := by
      rcases List.prefix_or_prefix_of_prefix (l₃ := src.items) ⟨zs, hpre⟩ (show xs ++ [v] <+: src.items from ⟨ys, by simp [hitems]⟩) with h | h
      · rcases List.prefix_concat_iff.mp h with h | h
        · exact absurd (by rw [h]; simp) hnot
        · exact h
      · exact absurd (h.subset (by simp)) hnot
    refine ⟨?_, fun items hsrc hys => ?_⟩
    · have h1 : (m.hist 1).eof 0 = false := by
        cases h : (m.hist 1).eof 0 with
        | false => rfl
        | true =>
          exfalso
          have hq : 0 < ((foreachProgram (K := K) src bad).comp 0).nout := by
            rw [show (foreachProgram src bad).comp 0 = src.comp from rfl, (source_shape src).2]; decide
          obtain ⟨hc0, hb0⟩ := hinv.eofs 0 (by decide : 0 < 2) 0 hq h
          have := hcl0 hc0
          rw [hb0, List.append_nil, hitems] at this
          exact hnot (by rw [this]; simp)
      have h2 : (m.hist 1).log <+: ((m.hist 1).ins 0).map .call := by
        refine hp.at hf hr (i := 1) (by decide : 1 < 2) (Q := fun h => h.eof 0 = false → (∀ x ∈ h.ins 0, bad x = false) → h.log <+: (h.ins 0).map .call) ?_ h1 hgood
        rintro C rfl s h hr he hg
        have hst := Seq.keeps (foreachP_init bad) (foreachP_keeps bad) hr
        rcases s with _ | s
        · obtain ⟨_, us, u, h3, _, h4, _⟩ := hst
          have := hg u (by rw [h3]; simp)
          rw [h4] at this; simp at this
        · cases s with
          | loop => rw [hst.2.1]; exact List.prefix_refl _
          | call u => obtain ⟨_, us, h3, h4, _⟩ := hst; rw [h3, h4, List.map_append]; exact ⟨_, rfl⟩
          | ret r => rw [hst.1] at he; simp at he
          | drain => exact hst.elim
          | done => rw [hst.1] at he; simp at he
      exact h2.trans ((hpx.map _).trans ⟨_, rfl⟩)
    · by_contra hc
      rw [Bool.not_eq_false] at hc
      subst hsrc
      have h5 := hcl0 hc
      have hb : m.buf 0 0 = [] := buf_nil (N := foreachProgram (.gen items) bad) (fun _ => rfl) hr
      rw [hb, List.append_nil, hitems] at h5
      exact hnot (by rw [h5]; simp)

end

/-! ### Runs in which this happens -/

/-- For the concrete cases beside the theorems. -/
def demoKey : Val Nat → Option Nat := fun v => if num v = 2 then none else some (num v)

/-- For the concrete cases beside the theorems. -/
def demoGen : Source Nat := .gen [.atom 1, .atom 2, .atom 3]

theorem recv_step (P : Seq (Val α) (Ev α K)) (s : P.σ) (v : Val α) {p : Nat} {k : Option (Val α) → P.σ} (h : P.next s = .recv p k) {s' : P.σ}
    (e : k (some v) = s') : P.comp.step s (.recv p v) s' := e ▸ .recv v h

theorem eof_step (P : Seq (Val α) (Ev α K)) (s : P.σ) {p : Nat} {k : Option (Val α) → P.σ} (h : P.next s = .recv p k) {s' : P.σ}
    (e : k none = s') : P.comp.step s (.eof p) s' := e ▸ .eof h

theorem demo_distinct : ∃ m, NReach (distinctProgram demoGen demoKey) m ∧ (m.hist 2).log = [.call (.atom 1), .ret .unit] ∧ (m.hist 1).log = [.panic (.atom 2)] := by
  have r0 : NReach (distinctProgram demoGen demoKey) _ := .init
  have r1 := NReach.step r0 (.meet _ 0 0 (.atom 1) (SendSt.loop [.atom 2, .atom 3]) (DistinctPSt.send (.atom 1) 1 []) rfl (by decide : 0 < 3) (.send rfl) rfl rfl
    (by decide : 0 ≠ 1) (by decide : 1 < 3)
    (by exact recv_step (distinctP demoKey) (DistinctPSt.loop []) (.atom 1) rfl rfl))
  have r2 := NReach.step r1 (.meet _ 1 0 (.atom 1) (DistinctPSt.loop [1]) (TermSt.call (.atom 1)) rfl (by decide : 1 < 3) (.send rfl) rfl rfl
    (by decide : 1 ≠ 2) (by decide : 2 < 3)
    (by exact recv_step foreachS TermSt.loop (.atom 1) rfl rfl))
  have r3 := NReach.step r2 (.log _ 2 (.call (.atom 1)) TermSt.loop rfl (by decide : 2 < 3) (.log rfl))
  have r4 := NReach.step r3 (.meet _ 0 0 (.atom 2) (SendSt.loop [.atom 3]) (DistinctPSt.panicking (.atom 2)) rfl (by decide : 0 < 3) (.send rfl) rfl rfl
    (by decide : 0 ≠ 1) (by decide : 1 < 3)
    (by exact recv_step (distinctP demoKey) (DistinctPSt.loop [1]) (.atom 2) rfl rfl))
  have r5 := NReach.step r4 (.log _ 1 (.panic (.atom 2)) DistinctPSt.closing rfl (by decide : 1 < 3) (.log rfl))
  have r6 := NReach.step r5 (.close _ 1 0 DistinctPSt.done rfl (by decide : 1 < 3) (.close rfl) rfl)
  have r7 := NReach.step r6 (.eof _ 2 0 (TermSt.ret .unit) rfl (by decide : 2 < 3)
    (by exact eof_step foreachS TermSt.loop rfl rfl) rfl rfl)
  have r8 := NReach.step r7 (.log _ 2 (.ret .unit) TermSt.done rfl (by decide : 2 < 3) (.log rfl))
  exact ⟨_, r8, rfl, rfl⟩

/-- Foreach has returned after one of three elements; the goroutine of the source has not ended and never will. -/
example : ∃ m, NReach (distinctProgram demoGen demoKey) m ∧ (m.hist 2).log = [.call (.atom 1), .ret .unit] ∧ m.closed 0 0 = false :=
  demo_distinct.imp fun _ h => ⟨h.1, h.2.1, (C101_distinct_refuted demoGen demoKey (by decide) (xs := [.atom 1]) (v := .atom 2) (ys := [.atom 3]) rfl
    (by decide) rfl h.1).2 _ rfl (by simp)⟩

/-- What C101 asks of the terminal operation: it is told that something went wrong, or gets everything. It is not so. -/
example : ∃ m, NReach (distinctProgram demoGen demoKey) m ∧ m.closed 1 0 = true := by
  obtain ⟨m, hr, h1, _⟩ := demo_distinct
  refine ⟨m, hr, ?_⟩
  have hinv := (distinct_is demoGen demoKey).inv (distinct_few demoGen demoKey (by decide)) hr
  have h2 := (foreach_returned (C := Term.foreach.comp) rfl (hinv.reach 2 (by decide : 2 < 3)) (r := .unit) (by rw [h1]; simp)).1
  exact (hinv.eofs 1 (by decide : 1 < 3) 0 (by decide : 0 < 1) h2).1

/-- For the concrete cases beside the theorems. -/
def demoBad : Val Nat → Bool := fun v => num v = 2

theorem demo_peek : ∃ m, NReach (peekProgram (K := Nat) (.gen [.atom 2]) demoBad) m ∧ (m.hist 1).log = [.panic (.atom 2)] ∧ (m.hist 1).ins 0 = [.atom 2] := by
  have r0 : NReach (peekProgram (K := Nat) (.gen [.atom 2]) demoBad) _ := .init
  have r1 := NReach.step r0 (.meet _ 0 0 (.atom 2) (SendSt.loop []) (some (FwdSt.send (.atom 2))) rfl (by decide : 0 < 3) (.send rfl) rfl rfl
    (by decide : 0 ≠ 1) (by decide : 1 < 3) (by exact recv_step (peekP demoBad) (some FwdSt.loop) (.atom 2) rfl rfl))
  have r2 := NReach.step r1 (.meet _ 1 0 (.atom 2) (some (FwdSt.call (.atom 2))) (TermSt.call (.atom 2)) rfl (by decide : 1 < 3) (.send rfl) rfl rfl
    (by decide : 1 ≠ 2) (by decide : 2 < 3) (by exact recv_step foreachS TermSt.loop (.atom 2) rfl rfl))
  have r3 := NReach.step r2 (.log _ 1 (.panic (.atom 2)) none rfl (by decide : 1 < 3) (.log rfl))
  exact ⟨_, r3, rfl, rfl⟩

example := demo_peek.imp fun _ h => C101_peek_refuted (K := Nat) (.gen [.atom 2]) demoBad (by decide) ⟨.atom 2, by simp [Source.items], rfl⟩ h.1

example := demo_peek.imp fun _ h => C101_peek (peek_is _ _) (peek_few _ _ (by decide)) h.1 (i := 1) (by decide : 1 < 3) rfl ⟨.atom 2, by rw [h.2.2]; simp, rfl⟩

theorem demo_foreach : ∃ m, NReach (foreachProgram (K := Nat) demoGen demoBad) m ∧ (m.hist 1).log = [.call (.atom 1), .panic (.atom 2)] ∧
    (m.hist 1).ins 0 = [.atom 1, .atom 2] := by
  have r0 : NReach (foreachProgram (K := Nat) demoGen demoBad) _ := .init
  have r1 := NReach.step r0 (.meet _ 0 0 (.atom 1) (SendSt.loop [.atom 2, .atom 3]) (some (TermSt.call (.atom 1))) rfl (by decide : 0 < 2) (.send rfl) rfl rfl
    (by decide : 0 ≠ 1) (by decide : 1 < 2) (by exact recv_step (foreachP demoBad) (some TermSt.loop) (.atom 1) rfl rfl))
  have r2 := NReach.step r1 (.log _ 1 (.call (.atom 1)) (some TermSt.loop) rfl (by decide : 1 < 2) (.log rfl))
  have r3 := NReach.step r2 (.meet _ 0 0 (.atom 2) (SendSt.loop [.atom 3]) (some (TermSt.call (.atom 2))) rfl (by decide : 0 < 2) (.send rfl) rfl rfl
    (by decide : 0 ≠ 1) (by decide : 1 < 2) (by exact recv_step (foreachP demoBad) (some TermSt.loop) (.atom 2) rfl rfl))
  have r4 := NReach.step r3 (.log _ 1 (.panic (.atom 2)) none rfl (by decide : 1 < 2) (.log rfl))
  exact ⟨_, r4, rfl, rfl⟩

example := demo_foreach.imp fun _ h => C101_foreach_refuted (K := Nat) demoGen demoBad (by decide) (xs := [.atom 1]) (v := .atom 2) (ys := [.atom 3]) rfl
  (by decide) rfl h.1

end Verif.XStream

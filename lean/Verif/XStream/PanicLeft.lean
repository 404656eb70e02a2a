import Verif.Conc.NetDead
import Verif.XStream.PanicTermProps
/-!
# C133: what panics of user functions can leave behind

Programs are networks of operations, some of whose functions panic (`IsPanicProgram`, C101). Every execution ends, and a goroutine that has not
ended then waits, through channels that have never been closed, for an operation whose function has panicked.
-/
namespace Verif.Conc.Net

variable {A L : Type} {P : Seq A L} {lim : Nat} {Inv : P.σ → Hist A L → Prop} {dead : Hist A L → Prop} {W : P.σ → Nat} {c : A → Nat}

/-- The part of `Seq.Ok` that concerns the weight. -/
def Seq.Drops (P : Seq A L) (W : P.σ → Nat) (c : A → Nat) (s : P.σ) : Cmd A L P.σ → Prop
  | .recv _ k => (∀ v, W (k (some v)) ≤ W s + c v) ∧ W (k none) < W s
  | .send _ _ k | .close _ k | .log _ k | .tau k => W k < W s
  | .done => True

theorem Seq.mortal (hnin : P.nin ≤ 1) (h0 : Inv P.init Hist.empty) (hok : ∀ s h, Inv s h → P.Keeps Inv h (P.next s))
    (hw : ∀ s, P.Drops W c s (P.next s))
    (hd : ∀ s h, Inv s h → P.next s = .done → (∀ p < P.nin, h.eof p = true) ∧ (∀ q < P.nout, h.closed q = true) ∨ dead h) : Mortal lim P.comp dead where
  safe := Seq.safe h0 hok
  sinks := by
    refine ⟨W, fun _ => c, fun s h l s' _ _ hst => ?_⟩
    have := hw s
    cases hst with
    | recv v e => rw [e] at this; exact this.1 v
    | eof e => rw [e] at this; exact this.2
    | send e => rw [e] at this; exact this
    | close e => rw [e] at this; exact this
    | log e => rw [e] at this; exact this
    | tau e => rw [e] at this; exact this
  fin := fun s h hr _ hs => (hd s h (Seq.keeps h0 hok hr) hs).imp_left And.right
  live := by
    intro s h hr _ hnd
    have := hok s h (Seq.keeps h0 hok hr)
    cases e : P.next s with
    | recv p k => rw [e] at this; exact .inr ⟨p, this.1, this.2.1, fun v => ⟨_, .recv v e⟩, ⟨_, .eof e⟩⟩
    | send q v k => exact .inl ⟨_, _, .send e, rfl⟩
    | close q k => exact .inl ⟨_, _, .close e, rfl⟩
    | log q k => exact .inl ⟨_, _, .log e, rfl⟩
    | tau k => exact .inl ⟨_, _, .tau e, rfl⟩
    | done => exact absurd e hnd
  accept := by
    intro s h hr _ p hp heof
    have hI := Seq.keeps h0 hok hr
    have := hok s h hI
    cases e : P.next s with
    | recv p' k =>
      rw [e] at this
      have : p' = p := by have h1 := this.1; have h2 : p < P.nin := hp; omega
      subst this
      exact .inl ⟨fun v => ⟨_, .recv v e⟩, ⟨_, .eof e⟩⟩
    | send q v k => exact .inr (.inl ⟨_, _, .send e, rfl⟩)
    | close q k => exact .inr (.inl ⟨_, _, .close e, rfl⟩)
    | log q k => exact .inr (.inl ⟨_, _, .log e, rfl⟩)
    | tau k => exact .inr (.inl ⟨_, _, .tau e, rfl⟩)
    | done =>
      rcases hd s h hI e with ⟨h1, _⟩ | h1
      · rw [h1 p hp] at heof; simp at heof
      · exact .inr (.inr h1)

end Verif.Conc.Net

namespace Verif.XStream
open Verif.Go Verif.Conc.Net

variable {α K : Type}

/-- The operation stops for ever if its function panics: it does not take the rest of its input. -/
def PNode.Stops : PNode α K → Prop
  | .peek _ | .distinct _ | .foreach _ | .mach _ _ _ | .keyed _ => True
  | .node _ | .ordered _ | .sort => False

/-- Such an operation, and its function has panicked. -/
def Stopped (pn : PNode α K) (h : Hist (Val α) (Ev α K)) : Prop := pn.Stops ∧ ∃ v, Ev.panic v ∈ h.log

/-- Proof only: part of a measure; models no code. -/
def pFwdW : Option (FwdSt α) → Nat
  | none => 0
  | some .loop => 2
  | some (.send _) => 4
  | some (.call _) => 3
  | some .closing => 1
  | some .done => 0

/-- Proof only: part of a measure; models no code. -/
def pTermW : Option (TermSt α K) → Nat
  | none => 0
  | some .loop => 3
  | some (.call _) => 4
  | some (.ret _) => 2
  | some .drain => 1
  | some .done => 0

/-- Proof only: part of a measure; models no code. -/
def pOrderedW : Option (OrderedSt α) → Nat
  | none => 0
  | some (.loop items) => items.length + 3
  | some (.back _ i) => (i + 1).toNat + 2
  | some .ret => 1
  | some .done => 0

/-- Proof only: part of a measure; models no code. -/
def pKeyedW : KeyedSt α K → Nat
  | .loop _ => 2
  | .panicking _ => 1
  | .ret _ => 1
  | .done => 0

/-- Proof only: part of a measure; models no code. -/
def pSortW : SortPSt α → Nat
  | .loop _ => 2
  | .panicking => 1
  | .done => 0

/-- Proof only: part of a measure; models no code. -/
def pDistinctW : DistinctPSt α K → Nat
  | .loop _ => 3
  | .send _ _ _ => 4
  | .panicking _ => 2
  | .closing => 1
  | .done => 0

variable [DecidableEq K]

theorem peekP_mortal (bad : Val α → Bool) : Mortal lim (peekP bad).comp (Stopped (.peek bad : PNode α K)) := by
  refine Seq.mortal (W := pFwdW) (c := fun _ => 2) (Nat.le_refl 1) (peekP_init bad) (peekP_keeps bad) ?_ ?_
  · rintro (_ | s)
    · trivial
    · cases s with
      | call v => by_cases hb : bad v = true <;> simp [peekP, panicky, peekS, panickyNext, peekNext, hb, Seq.Drops, pFwdW]
      | _ => simp [peekP, panicky, peekS, panickyNext, peekNext, Seq.Drops, pFwdW]
  · rintro (_ | s) h hI hd
    · obtain ⟨_, _, _, xs, v, _, hl, _⟩ := hI
      exact .inr ⟨trivial, v, by simp [hl]⟩
    · cases s with
      | done => exact .inl ⟨fun p hp => by obtain rfl := Nat.lt_one_iff.mp hp; exact hI.1, fun q hq => by obtain rfl := Nat.lt_one_iff.mp hq; exact hI.2.1⟩
      | call v => by_cases hb : bad v = true <;> simp [peekP, panicky, peekS, panickyNext, peekNext, hb] at hd
      | _ => simp [peekP, panicky, peekS, panickyNext, peekNext] at hd

theorem foreachP_mortal (bad : Val α → Bool) : Mortal lim (foreachP bad).comp (Stopped (.foreach bad : PNode α K)) := by
  refine Seq.mortal (W := pTermW) (c := fun _ => 1) (Nat.le_refl 1) (foreachP_init bad) (foreachP_keeps bad) ?_ ?_
  · rintro (_ | s)
    · trivial
    · cases s with
      | call v => by_cases hb : bad v = true <;> simp [foreachP, panicky, foreachS, panickyNext, foreachNext, hb, Seq.Drops, pTermW]
      | _ => simp [foreachP, panicky, foreachS, panickyNext, foreachNext, Seq.Drops, pTermW]
  · rintro (_ | s) h hI hd
    · obtain ⟨_, xs, v, _, hl, _⟩ := hI
      exact .inr ⟨trivial, v, by simp [hl]⟩
    · cases s with
      | done => exact .inl ⟨fun p hp => by obtain rfl := Nat.lt_one_iff.mp hp; exact hI.1, fun q hq => absurd hq (Nat.not_lt_zero q)⟩
      | call v => by_cases hb : bad v = true <;> simp [foreachP, panicky, foreachS, panickyNext, foreachNext, hb] at hd
      | _ => simp [foreachP, panicky, foreachS, panickyNext, foreachNext] at hd

theorem machP_mortal (bad : Val α → Bool) (want : Bool) (f : Val α → Bool) : Mortal lim (machP bad want f).comp (Stopped (.mach bad want f : PNode α K)) := by
  refine Seq.mortal (W := pTermW) (c := fun _ => 1) (Nat.le_refl 1) (machP_init bad want f) (machP_keeps bad want f) ?_ ?_
  · rintro (_ | s)
    · trivial
    · cases s with
      | call v =>
        by_cases hb : bad v = true <;> by_cases hf : f v = want <;>
          simp [machP, panicky, machS, panickyNext, machNext, hb, hf, Seq.Drops, pTermW]
      | ret r =>
        cases r with
        | bool b => by_cases e : b = want <;> simp [machP, panicky, machS, panickyNext, machNext, e, Seq.Drops, pTermW]
        | _ => simp [machP, panicky, machS, panickyNext, machNext, Seq.Drops, pTermW]
      | _ => simp [machP, panicky, machS, panickyNext, machNext, Seq.Drops, pTermW]
  · rintro (_ | s) h hI hd
    · obtain ⟨_, xs, v, _, hl, _⟩ := hI
      exact .inr ⟨trivial, v, by simp [hl]⟩
    · cases s with
      | done => exact .inl ⟨fun p hp => by obtain rfl := Nat.lt_one_iff.mp hp; exact hI.1, fun q hq => absurd hq (Nat.not_lt_zero q)⟩
      | call v => by_cases hb : bad v = true <;> simp [machP, panicky, machS, panickyNext, machNext, hb] at hd
      | ret r => cases r <;> simp [machP, panicky, machS, panickyNext, machNext] at hd
      | _ => simp [machP, panicky, machS, panickyNext, machNext] at hd

theorem orderedP_mortal (bad : Val α → Bool) : Mortal lim (orderedP bad).comp (Stopped (.ordered bad : PNode α K)) := by
  refine Seq.mortal (W := pOrderedW) (c := fun _ => 1) (Nat.le_refl 1) (orderedP_init bad) (orderedP_keeps bad) ?_ ?_
  · rintro (_ | s)
    · trivial
    · cases s with
      | back items i =>
        by_cases e : i ≥ 0
        · by_cases hb : bad (items.getD i.toNat .nil) = true
          · simp only [orderedP, panicky, orderedS, panickyNext, orderedNext, e, if_true, hb, Seq.Drops, pOrderedW]; omega
          · simp only [orderedP, panicky, orderedS, panickyNext, orderedNext, e, if_true, hb, Seq.Drops, pOrderedW]
            simp only [Bool.false_eq_true, if_false]; omega
        · simp only [orderedP, panicky, orderedS, panickyNext, orderedNext, e, if_false, Seq.Drops, pOrderedW]; omega
      | loop items =>
        simp only [orderedP, panicky, orderedS, panickyNext, orderedNext, Seq.Drops, pOrderedW, List.length_append, List.length_singleton]
        exact ⟨fun _ => by omega, by omega⟩
      | _ => simp [orderedP, panicky, orderedS, panickyNext, orderedNext, Seq.Drops, pOrderedW]
  · rintro (_ | s) h hI hd
    · exact .inl ⟨fun p hp => by obtain rfl := Nat.lt_one_iff.mp hp; exact hI.1, fun q hq => absurd hq (Nat.not_lt_zero q)⟩
    · cases s with
      | done => exact .inl ⟨fun p hp => by obtain rfl := Nat.lt_one_iff.mp hp; exact hI.1, fun q hq => absurd hq (Nat.not_lt_zero q)⟩
      | back items i =>
        by_cases e : i ≥ 0
        · by_cases hb : bad (items.getD i.toNat .nil) = true
          · simp only [orderedP, panicky, orderedS, panickyNext, orderedNext, e, if_true, hb] at hd; cases hd
          · simp only [orderedP, panicky, orderedS, panickyNext, orderedNext, e, if_true, hb] at hd; cases hd
        · simp only [orderedP, panicky, orderedS, panickyNext, orderedNext, e, if_false] at hd; cases hd
      | _ => simp [orderedP, panicky, orderedS, panickyNext, orderedNext] at hd

theorem keyedP_mortal (f : Val α → Option K) : Mortal lim (keyedP f).comp (Stopped (.keyed f)) := by
  refine Seq.mortal (W := pKeyedW) (c := fun _ => 1) (Nat.le_refl 1) (keyedP_init f) (keyedP_keeps f) ?_ ?_
  · intro s
    cases s with
    | loop g =>
      refine ⟨fun v => ?_, by simp [pKeyedW]⟩
      change pKeyedW (match f v with | none => KeyedSt.panicking v | some k => .loop (GMap.set g k ((GMap.get g k).getD [] ++ [v]))) ≤ _
      cases f v <;> simp [pKeyedW]
    | _ => simp [keyedP, keyedNext, Seq.Drops, pKeyedW]
  · intro s h hI hd
    cases s with
    | done =>
      rcases hI with ⟨h1, _⟩ | ⟨_, xs, v, _, hl, _⟩
      · exact .inl ⟨fun p hp => by obtain rfl := Nat.lt_one_iff.mp hp; exact h1, fun q hq => absurd hq (Nat.not_lt_zero q)⟩
      · exact .inr ⟨trivial, v, by simp [hl]⟩
    | _ => simp [keyedP, keyedNext] at hd

theorem sortP_mortal : Mortal lim (sortP (α := α) (K := K)).comp (Stopped (.sort : PNode α K)) := by
  refine Seq.mortal (W := pSortW) (c := fun _ => 1) (Nat.le_refl 1) sortP_init sortP_keeps ?_ ?_
  · intro s
    cases s <;> simp [sortP, sortPNext, Seq.Drops, pSortW]
  · intro s h hI hd
    cases s with
    | done => exact .inl ⟨fun p hp => by obtain rfl := Nat.lt_one_iff.mp hp; exact hI.1, fun q hq => absurd hq (Nat.not_lt_zero q)⟩
    | _ => simp [sortP, sortPNext] at hd

theorem distinctP_mortal (f : Val α → Option K) : Mortal lim (distinctP f).comp (Stopped (.distinct f)) := by
  refine Seq.mortal (W := pDistinctW) (c := fun _ => 1) (Nat.le_refl 1) (distinctP_init f) (distinctP_keeps f) ?_ ?_
  · intro s
    cases s with
    | loop u =>
      refine ⟨fun v => ?_, by simp [pDistinctW]⟩
      change pDistinctW (match f v with | none => DistinctPSt.panicking v | some k => if k ∈ u then .loop u else .send v k u) ≤ _
      cases f v with
      | none => simp [pDistinctW]
      | some k => by_cases e : k ∈ u <;> simp [pDistinctW, e]
    | _ => simp [distinctP, distinctPNext, Seq.Drops, pDistinctW]
  · intro s h hI hd
    cases s with
    | done =>
      obtain ⟨hc, ⟨h1, _⟩ | ⟨_, xs, v, _, _, _, _, hl⟩⟩ := hI
      · exact .inl ⟨fun p hp => by obtain rfl := Nat.lt_one_iff.mp hp; exact h1, fun q hq => by obtain rfl := Nat.lt_one_iff.mp hq; exact hc⟩
      · exact .inr ⟨trivial, v, by simp [hl]⟩
    | _ => simp [distinctP, distinctPNext] at hd

theorem pnode_mortal {pn : PNode α K} {C : Comp (Val α) (Ev α K)} (hb : pn.Builds C) (hv : ∀ nd, pn = .node nd → nd.Valid) : Mortal lim C (Stopped pn) := by
  cases pn with
  | node nd => exact (node_good hb (hv nd rfl)).mortal
  | peek bad => cases hb; exact peekP_mortal bad
  | distinct f => cases hb; exact distinctP_mortal f
  | foreach bad => cases hb; exact foreachP_mortal bad
  | mach bad want f => cases hb; exact machP_mortal bad want f
  | ordered bad => cases hb; exact orderedP_mortal bad
  | keyed f => cases hb; exact keyedP_mortal f
  | sort => cases hb; exact sortP_mortal

variable {N : Net (Val α) (Ev α K)} {node : Nat → PNode α K}

theorem IsPanicProgram.mortal (hp : IsPanicProgram N node) : ∀ i < N.n, Mortal lim (N.comp i) (Stopped (node i)) :=
  fun i hi => pnode_mortal (hp.built i hi) (hp.valid i hi)

/-- **C133.** Whichever functions panic, every execution ends. -/
theorem C133_ends (hp : IsPanicProgram N node) (hf : FewValues N) :
    (∀ e : Nat → NState N, NReach N (e 0) → ¬ ∀ k, NStep (e k) (e (k + 1))) ∧
    ∀ m, NReach N m → ∃ m', Relation.ReflTransGen NStep m m' ∧ ∀ m'', ¬ NStep m' m'' := by
  refine ⟨finite_safe hp.wf hf (fun i hi => (hp.mortal i hi).safe) (fun i hi => (hp.mortal i hi).sinks), fun m hr => ?_⟩
  obtain ⟨m', h1, _, h2⟩ := reaches_stuck hp.wf hf (fun i hi => (hp.mortal i hi).safe) (fun i hi => (hp.mortal i hi).sinks) hr
  exact ⟨m', h1, h2⟩

/-- **C133.** If a goroutine has not ended although nothing can happen any more, its operation gets its input, directly or through other
operations, from an operation `j`, which sends, directly or through others, to an operation `d` whose function has panicked; and all the channels on
these ways are still open. (`j` can be `d`, or the operation itself.) -/
theorem C133_left (hp : IsPanicProgram N node) (hf : FewValues N) {m : NState N} (hr : NReach N m) (hend : ∀ m', ¬ NStep m m') {i : Nat} (hi : i < N.n)
    (hnd : ¬ (N.comp i).done (m.st i)) :
    ∃ j < N.n, ∃ d < N.n, Relation.ReflTransGen (Open m) j i ∧ Relation.ReflTransGen (Open m) j d ∧
      (node d).Stops ∧ ∃ v, Ev.panic v ∈ (m.hist d).log :=
  stuck_by_dead hp.wf hf hp.mortal hr hend i hi hnd

/-- **C133.** In particular everything has ended if no function of one of these operations has panicked; panics in Walk, Map, Filter, FlatMap,
ParallelFinish, From, ForeachOrdered and Sort leave nothing behind. -/
theorem C133_nothing (hp : IsPanicProgram N node) (hf : FewValues N) {m : NState N} (hr : NReach N m) (hend : ∀ m', ¬ NStep m m')
    (hno : ∀ d < N.n, (node d).Stops → ∀ v, Ev.panic v ∉ (m.hist d).log) : ∀ i < N.n, (N.comp i).done (m.st i) := by
  intro i hi
  by_contra hnd
  obtain ⟨_, _, d, hd, _, _, hs, v, hv⟩ := C133_left hp hf hr hend hi hnd
  exact hno d hd hs v hv

/-- **C133.** What is behind a Distinct gets to its end whether the key function panics or not: From(items).Distinct(f).Foreach(…) returns in every
execution, after the elements that `C101_distinct` says. -/
theorem C133_distinct (src : Source α) (f : Val α → Option K) (hlen : src.items.length < 2 ^ 63) {m : NState (distinctProgram src f)} (hr : NReach _ m)
    (hend : ∀ m', ¬ NStep m m') : Ev.ret .unit ∈ (m.hist 2).log := by
  have hp := distinct_is src f
  have hf := distinct_few src f hlen
  have hinv := hp.inv hf hr
  have hdone : ((distinctProgram src f).comp 2).done (m.st 2) := by
    by_contra hnd
    obtain ⟨j, hj, d, hd, p1, p2, hs, v, hv⟩ := C133_left hp hf hr hend (i := 2) (by decide : 2 < 3) hnd
    have hd1 : d = 1 := by
      have hd : d < 3 := hd
      rcases d with _ | _ | _ | d
      · exact hs.elim
      · rfl
      · exact hs.elim
      · omega
    subst hd1
    have key : ∀ h, (distinctProgram src f).comp 1 = (distinctP f).comp → h = m.hist 1 → h.closed 0 = true := by
      rintro h hC rfl
      have hI := Seq.keeps (distinctP_init f) (distinctP_keeps f) (hinv.reach 1 (by decide : 1 < 3))
      have hstep : ∀ s', (distinctP f).next (m.st 1) ≠ .close 0 s' := by
        intro s' e
        have := distinctP_keeps f _ _ hI
        rw [e] at this
        exact hend _ (.close m 1 0 s' hinv.ok (by decide : 1 < 3) (.close e) (by rw [hinv.cl 1 (by decide : 1 < 3) 0 (by decide : 0 < 1)]; exact this.2.1))
      generalize hst : m.st 1 = s at hI hstep
      cases (s : DistinctPSt α K) with
      | loop u => rw [hI.2.2.2.2.2] at hv; simp at hv
      | send w k u => rw [hI.2.2.2.2.2] at hv; simp at hv
      | panicking w => rw [hI.2.2.1] at hv; simp at hv
      | closing => exact absurd rfl (hstep .done)
      | done => exact hI.1
    have hcl : m.closed 1 0 = true := by
      rw [hinv.cl 1 (by decide : 1 < 3) 0 (by decide : 0 < 1)]; exact key _ rfl rfl
    have noOut : ∀ k, ¬ Open m 2 k := by
      rintro k ⟨_, q, hq, _⟩
      exact absurd hq (Nat.not_lt_zero q)
    rcases Relation.ReflTransGen.cases_tail p1 with e | ⟨k, _, hk, q, hq, e, hc⟩
    · subst e
      rcases Relation.ReflTransGen.cases_head p2 with e | ⟨k, hk, _⟩
      · cases e
      · exact noOut k hk
    · have e : k + 1 = 2 := e
      obtain rfl : k = 1 := by omega
      obtain rfl : q = 0 := Nat.lt_one_iff.mp hq
      rw [hcl] at hc; simp at hc
  have := ((node_good (nd := .term .foreach) (K := K) (α := α) rfl trivial).fin _ _ (hinv.reach 2 (by decide : 2 < 3)) (hf m hr 2 (by decide : 2 < 3)) hdone).2.2
  have : (m.hist 2).log = ((m.hist 2).ins 0).map .call ++ [.ret .unit] := this
  rw [this]; simp

/-- Of the program From(1, 2, 3).Distinct(f).Foreach(…), where `f` panics for 2, the goroutine of the generator is left, and nothing else. -/
example : ∃ m : NState (distinctProgram demoGen demoKey), NReach _ m ∧ (∀ m', ¬ NStep m m') ∧
    ¬ ((distinctProgram demoGen demoKey).comp 0).done (m.st 0) ∧ Ev.ret .unit ∈ (m.hist 2).log := by
  have hp := distinct_is demoGen demoKey
  have hf := distinct_few demoGen demoKey (by decide)
  obtain ⟨m, hr, hend⟩ : ∃ m : NState (distinctProgram demoGen demoKey), NReach _ m ∧ ∀ m', ¬ NStep m m' := by
    obtain ⟨m, _, h1, h2⟩ := reaches_stuck hp.wf hf (fun i hi => (hp.mortal i hi).safe) (fun i hi => (hp.mortal i hi).sinks) .init
    exact ⟨m, h1, h2⟩
  refine ⟨m, hr, hend, fun hd => ?_, C133_distinct _ _ (by decide) hr hend⟩
  have h1 := (C101_distinct_refuted demoGen demoKey (by decide) (xs := [.atom 1]) (v := .atom 2) (ys := [.atom 3]) rfl (by decide) rfl hr).2 _ rfl (by simp)
  have h2 := ((node_good (nd := .source demoGen) (K := Nat) rfl trivial).fin _ _ ((hp.inv hf hr).reach 0 (by decide : 0 < 3))
    (hf m hr 0 (by decide : 0 < 3)) hd).2.1 0 (by decide : 0 < 1)
  rw [← (hp.inv hf hr).cl 0 (by decide : 0 < 3) 0 (by decide : 0 < 1), h1] at h2
  simp at h2

end Verif.XStream

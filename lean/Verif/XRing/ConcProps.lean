import Verif.XRing.Conc
import Verif.XRing.Props
import Mathlib.Data.List.Perm.Subperm
/-! # Property theorems for the ring under concurrency (C02) -/
namespace Verif.XRing.Conc
open Verif.Go Verif.Conc

variable {α : Type}

/-- Calls that hold the write lock. -/
def PC.writes : PC α → Prop
  | .addSlot _ | .addStore _ _ | .addLoad _ | .addSet _ _ | .addUnlock _ _ => True
  | _ => False

/-- Calls that hold the read lock. -/
def PC.reads : PC α → Prop
  | .takeCmp | .takeBig | .takeSmall | .takeMake _ _ | .takeLoop _ _ _ _ | .takeUnlock _ => True
  | _ => False

/-- The result of `Take` (xring.go:49-68); `none`: a panic. -/
def resOf : Option (List α) → Res α
  | some l => .vals l
  | none => .panic

/-- What a writer in the middle of its work knows: `ring` is the memory, `cur` the abstract state. -/
def AddFact (ring cur : Ring α) : PC α → Prop
  | .addSlot _ => ring = cur
  | .addStore v slot => ring = cur ∧ cur.add v = some ⟨cur.elements.set slot v, wrap64 (cur.index + 1)⟩
  | .addLoad v => cur.add v = some ⟨ring.elements, wrap64 (ring.index + 1)⟩
  | .addSet v t => cur.add v = some ⟨ring.elements, t⟩
  | .addUnlock _ _ => ring = cur
  | _ => True

/-- What a reader in the middle of its work knows. -/
def TakeFact (cur : Ring α) : PC α → Prop
  | .takeBig => cur.index > cur.elements.length
  | .takeSmall => ¬ cur.index > cur.elements.length
  | .takeMake size start => cur.take = if size < 0 then none else copyLoop cur.elements start.toNat 0 size.toNat
  | .takeLoop start i cnt acc => cur.take = (copyLoop cur.elements start i cnt).map (acc ++ ·)
  | .takeUnlock res => res = resOf cur.take
  | _ => True

/-- The ghost status belonging to a program point. -/
def StFact (S : Spec (Ring α) (Call α) (Res α)) (g : Ghost (Ring α) (Call α) (Res α)) (i : Nat) : PC α → Prop
  | .idle => g.st i = .idle
  | .addLock v | .addSlot v | .addStore v _ | .addLoad v | .addSet v _ => g.st i = .invoked (.add v)
  | .addUnlock v res | .addRet v res => g.st i = .committed (.add v) res
  | .takeLock | .takeCmp | .takeBig | .takeSmall | .takeMake _ _ | .takeLoop _ _ _ _ | .takeUnlock _ => g.st i = .invoked .take
  | .takeRet res => g.st i = .invoked .take ∧ g.Saw S i .take res
  | .done => True

/-- Proof only: part of an invariant or simulation; models no code. -/
structure Sim (r : Ring α) (m : St α) (g : Ghost (Ring α) (Call α) (Res α)) : Prop where
  writer : ∀ i, m.writer = some i ↔ (m.pc i).writes
  reader : ∀ i, i ∈ m.readers ↔ (m.pc i).reads
  excl : ∀ i, m.writer = some i → m.readers = []
  free : m.writer = none → m.ring = g.cur
  add : ∀ i, m.writer = some i → AddFact m.ring g.cur (m.pc i)
  take : ∀ i, i ∈ m.readers → TakeFact g.cur (m.pc i)
  st : ∀ i, StFact (spec r) g i (m.pc i)

theorem saw_append {S : Spec (Ring α) (Call α) (Res α)} {g g' : Ghost (Ring α) (Call α) (Res α)} {i : Nat} {op : Call α} {res : Res α}
    (h : g.Saw S i op res) (hstart : g'.start i = g.start i) (hlen : g.log.length ≤ g'.log.length)
    (hat : ∀ k, k ≤ g.log.length → g'.at' k = g.at' k) : g'.Saw S i op res := by
  obtain ⟨k, h1, h2, h3⟩ := h
  exact ⟨k, by rw [hstart]; exact h1, by omega, by rw [hat k h2]; exact h3⟩

/-- A step of call `i` that changes neither lock nor memory nor ghost. -/
theorem sim_local {r : Ring α} {m : St α} {g : Ghost (Ring α) (Call α) (Res α)} (h : Sim r m g) (i : Nat) (p : PC α)
    (hw : p.writes ↔ (m.pc i).writes) (hr : p.reads ↔ (m.pc i).reads)
    (ha : p.writes → AddFact m.ring g.cur p) (ht : p.reads → TakeFact g.cur p) (hst : StFact (spec r) g i p) :
    Sim r (m.goto i p) g := by
  constructor
  · intro j
    by_cases hj : j = i
    · subst hj; simp only [St.goto, upd_same]; rw [hw]; exact h.writer j
    · simp only [St.goto, upd_ne _ _ hj]; exact h.writer j
  · intro j
    by_cases hj : j = i
    · subst hj; simp only [St.goto, upd_same]; rw [hr]; exact h.reader j
    · simp only [St.goto, upd_ne _ _ hj]; exact h.reader j
  · exact h.excl
  · exact h.free
  · intro j hj
    by_cases hji : j = i
    · subst hji
      simp only [St.goto, upd_same]
      exact ha (hw.mpr ((h.writer j).mp hj))
    · simp only [St.goto, upd_ne _ _ hji]; exact h.add j hj
  · intro j hj
    by_cases hji : j = i
    · subst hji
      simp only [St.goto, upd_same]
      exact ht (hr.mpr ((h.reader j).mp hj))
    · simp only [St.goto, upd_ne _ _ hji]; exact h.take j hj
  · intro j
    by_cases hji : j = i
    · subst hji; simp only [St.goto, upd_same]; exact hst
    · simp only [St.goto, upd_ne _ _ hji]; exact h.st j

/-- Facts about other calls survive ghost steps of call `i`. -/
theorem stFact_other {S : Spec (Ring α) (Call α) (Res α)} {g g' : Ghost (Ring α) (Call α) (Res α)} {j : Nat} {p : PC α}
    (h : StFact S g j p) (hst : g'.st j = g.st j) (hstart : g'.start j = g.start j) (hlen : g.log.length ≤ g'.log.length)
    (hat : ∀ k, k ≤ g.log.length → g'.at' k = g.at' k) : StFact S g' j p := by
  cases p <;> simp only [StFact, hst] at h ⊢ <;> try exact h
  exact ⟨h.1, saw_append h.2 hstart hlen hat⟩

theorem sim_step (r : Ring α) (m : St α) (g : Ghost (Ring α) (Call α) (Res α)) (l : Option (Ev (Call α) (Res α))) (m' : St α)
    (hg : GReach (spec r) g) (h : Sim r m g) (hs : (machine r).Step m l m') :
    ∃ g', GSteps (spec r) g g' ∧ g'.hist = g.hist ++ l.toList ∧ Sim r m' g' := by
  -- invocation
  have hinv : ∀ (i : Nat) (op : Call α) (p : PC α), m.pc i = .idle → ¬ p.writes → ¬ p.reads →
      (∀ g', g'.st i = .invoked op → StFact (spec r) g' i p) →
      ∃ g', GSteps (spec r) g g' ∧ g'.hist = g.hist ++ [Ev.inv i op] ∧ Sim r (m.goto i p) g' := by
    intro i op p hpc hw hr hst
    have hidle : g.st i = .idle := by have := h.st i; rw [hpc] at this; exact this
    refine ⟨g.invoke i op, .step (.refl g) (.invoke g i op hidle), rfl, ?_⟩
    constructor
    · intro j
      by_cases hj : j = i
      · subst hj; simp only [St.goto, upd_same]
        rw [h.writer j, hpc]; simp only [PC.writes]; exact ⟨False.elim, fun h' => hw h'⟩
      · simp only [St.goto, upd_ne _ _ hj]; exact h.writer j
    · intro j
      by_cases hj : j = i
      · subst hj; simp only [St.goto, upd_same]
        rw [h.reader j, hpc]; simp only [PC.reads]; exact ⟨False.elim, fun h' => hr h'⟩
      · simp only [St.goto, upd_ne _ _ hj]; exact h.reader j
    · exact h.excl
    · exact h.free
    · intro j hj
      have hji : j ≠ i := by
        rintro rfl; have := (h.writer j).mp hj; rw [hpc] at this; exact this
      simp only [St.goto, upd_ne _ _ hji]; exact h.add j hj
    · intro j hj
      have hji : j ≠ i := by
        rintro rfl; have := (h.reader j).mp hj; rw [hpc] at this; exact this
      simp only [St.goto, upd_ne _ _ hji]; exact h.take j hj
    · intro j
      by_cases hji : j = i
      · subst hji; simp only [St.goto, upd_same]; exact hst _ (by simp [Ghost.invoke])
      · simp only [St.goto, upd_ne _ _ hji]
        exact stFact_other (h.st j) (by simp [Ghost.invoke, upd_ne _ _ hji]) (by simp [Ghost.invoke, upd_ne _ _ hji]) (Nat.le_refl _) (fun k _ => rfl)
  cases hs with
  | inv i op m' he =>
    simp only [machine, invoke] at he
    split at he
    · rename_i hpc
      simp only [Option.some.injEq] at he
      subst he
      cases op with
      | add v => exact hinv i _ _ hpc (by simp [PC.writes]) (by simp [PC.reads]) (fun g' hg => hg)
      | take => exact hinv i _ _ hpc (by simp [PC.writes]) (by simp [PC.reads]) (fun g' hg => hg)
    · simp at he
  | run i c =>
    rename_i hn
    simp only [machine] at hn
    have hsti := h.st i
    unfold next at hn
    -- steps without ghost effect
    have hlocal : ∀ p : PC α, (p.writes ↔ (m.pc i).writes) → (p.reads ↔ (m.pc i).reads) →
        (p.writes → AddFact m.ring g.cur p) → (p.reads → TakeFact g.cur p) → StFact (spec r) g i p →
        ∃ g', GSteps (spec r) g g' ∧ g'.hist = g.hist ++ (none : Option (Ev (Call α) (Res α))).toList ∧ Sim r (m.goto i p) g' :=
      fun p a b c d e => ⟨g, .refl g, by simp, sim_local h i p a b c d e⟩
    -- commit of an addition
    have hcommit : ∀ (v : α) (res : Res α) (s' ring' : Ring α), m.writer = some i → g.st i = .invoked (.add v) →
        (spec r).step g.cur (.add v) res s' → ring' = s' →
        ∃ g', GSteps (spec r) g g' ∧ g'.hist = g.hist ++ (none : Option (Ev (Call α) (Res α))).toList ∧
          Sim r { m.goto i (.addUnlock v res) with ring := ring' } g' := by
      intro v res s' ring' hw hst hspec hring
      refine ⟨g.commit i (.add v) res s', .step (.refl g) (.commit g i _ _ _ hst hspec), by simp [Ghost.commit], ?_⟩
      have hcur : (g.commit i (.add v) res s').cur = s' := by simp [Ghost.commit, Ghost.cur]
      have hww := (h.writer i).mp hw
      constructor
      · intro j
        by_cases hj : j = i
        · subst hj; simp only [St.goto, upd_same]; simp [PC.writes, hw]
        · simp only [St.goto, upd_ne _ _ hj]; exact h.writer j
      · intro j
        by_cases hj : j = i
        · subst hj; simp only [St.goto, upd_same]; rw [h.excl j hw]; simp [PC.reads]
        · simp only [St.goto, upd_ne _ _ hj]; exact h.reader j
      · exact h.excl
      · intro hn; simp only [St.goto] at hn; rw [hw] at hn; simp at hn
      · intro j hj
        have hji : j = i := by simp only [St.goto] at hj; rw [hw] at hj; simp at hj; exact hj.symm
        subst hji
        simp only [St.goto, upd_same, AddFact, hcur]; exact hring
      · intro j hj
        simp only [St.goto] at hj; rw [h.excl i hw] at hj; simp at hj
      · intro j
        by_cases hji : j = i
        · subst hji; simp only [St.goto, upd_same, StFact]; simp [Ghost.commit]
        · simp only [St.goto, upd_ne _ _ hji]
          refine stFact_other (h.st j) (by simp [Ghost.commit, upd_ne _ _ hji]) rfl (by simp [Ghost.commit]) (fun k hk => ?_)
          exact upd_ne _ _ (by omega)
    have hpw := h.writer i
    have hpr := h.reader i
    cases hpc : m.pc i with
    | idle => simp [hpc] at hn
    | done => simp [hpc] at hn
    | addLock v =>
      simp only [hpc] at hn hsti
      cases hw : m.writer with
      | some j => simp [hw] at hn
      | none =>
        cases hrd : m.readers with
        | cons a b => simp [hw, hrd] at hn
        | nil =>
          simp only [hw, hrd, Option.some.injEq, Prod.mk.injEq] at hn
          obtain ⟨rfl, rfl⟩ := hn
          refine ⟨g, .refl g, by simp, ?_⟩
          constructor
          · intro j
            by_cases hj : j = i
            · subst hj; simp [St.goto, PC.writes]
            · simp only [St.goto, upd_ne _ _ hj]
              rw [← h.writer j, hw]; simp; exact fun h' => hj h'.symm
          · intro j
            by_cases hj : j = i
            · subst hj; simp [St.goto, PC.reads, hrd]
            · simp only [St.goto, upd_ne _ _ hj]; exact h.reader j
          · intro j hj; exact hrd
          · intro hn; simp at hn
          · intro j hj
            simp only [Option.some.injEq] at hj
            subst hj
            simp only [St.goto, upd_same, AddFact]
            exact h.free hw
          · intro j hj; simp only [St.goto] at hj; rw [hrd] at hj; simp at hj
          · intro j
            by_cases hji : j = i
            · subst hji; simp only [St.goto, upd_same]; exact hsti
            · simp only [St.goto, upd_ne _ _ hji]; exact h.st j
    | addSlot v =>
      rw [hpc] at hpw
      have hw : m.writer = some i := hpw.mpr trivial
      have hfact := h.add i hw
      simp only [hpc] at hn hsti hfact
      simp only [AddFact] at hfact
      have hpan : g.cur.add v = none → ∃ g', GSteps (spec r) g g' ∧ g'.hist = g.hist ++ (none : Option (Ev (Call α) (Res α))).toList ∧
          Sim r (m.goto i (.addUnlock v .panic)) g' := by
        intro hnone
        exact hcommit v .panic g.cur m.ring hw hsti (by simp [spec, hnone]) hfact
      split at hn
      · rename_i h0
        simp only [Option.some.injEq, Prod.mk.injEq] at hn
        obtain ⟨rfl, rfl⟩ := hn
        apply hpan
        rw [← hfact]; unfold Ring.add; rw [if_pos h0]
      · rename_i h0
        split at hn
        · rename_i h1
          simp only [Option.some.injEq, Prod.mk.injEq] at hn
          obtain ⟨rfl, rfl⟩ := hn
          apply hpan
          rw [← hfact]; unfold Ring.add; rw [if_neg h0]; simp only [h1, if_true]
        · rename_i h1
          simp only [Option.some.injEq, Prod.mk.injEq] at hn
          obtain ⟨rfl, rfl⟩ := hn
          refine hlocal _ (by simp [PC.writes, hpc]) (by simp [PC.reads, hpc]) (fun _ => ⟨hfact, ?_⟩) (by simp [PC.reads]) hsti
          rw [← hfact]; unfold Ring.add; rw [if_neg h0]; simp only [h1, if_false]
    | addStore v slot =>
      rw [hpc] at hpw
      have hw : m.writer = some i := hpw.mpr trivial
      have hfact := h.add i hw
      simp only [hpc, Option.some.injEq, Prod.mk.injEq] at hn hsti hfact
      obtain ⟨rfl, rfl⟩ := hn
      simp only [AddFact] at hfact
      refine ⟨g, .refl g, by simp, ?_⟩
      constructor
      · intro j
        by_cases hj : j = i
        · subst hj; simp [St.goto, PC.writes, hw]
        · simp only [St.goto, upd_ne _ _ hj]; exact h.writer j
      · intro j
        by_cases hj : j = i
        · subst hj; simp [St.goto, PC.reads, h.excl j hw]
        · simp only [St.goto, upd_ne _ _ hj]; exact h.reader j
      · exact h.excl
      · intro hn; simp only [St.goto] at hn; rw [hw] at hn; simp at hn
      · intro j hj
        have hji : j = i := by simp only [St.goto] at hj; rw [hw] at hj; simp at hj; exact hj.symm
        subst hji
        simp only [St.goto, upd_same, AddFact]
        rw [hfact.2, hfact.1]
      · intro j hj; simp only [St.goto] at hj; rw [h.excl i hw] at hj; simp at hj
      · intro j
        by_cases hji : j = i
        · subst hji; simp only [St.goto, upd_same]; exact hsti
        · simp only [St.goto, upd_ne _ _ hji]; exact h.st j
    | addLoad v =>
      rw [hpc] at hpw
      have hw : m.writer = some i := hpw.mpr trivial
      have hfact := h.add i hw
      simp only [hpc, Option.some.injEq, Prod.mk.injEq] at hn hsti hfact
      obtain ⟨rfl, rfl⟩ := hn
      exact hlocal _ (by simp [PC.writes, hpc]) (by simp [PC.reads, hpc]) (fun _ => hfact) (by simp [PC.reads]) hsti
    | addSet v t =>
      rw [hpc] at hpw
      have hw : m.writer = some i := hpw.mpr trivial
      have hfact := h.add i hw
      simp only [hpc, Option.some.injEq, Prod.mk.injEq] at hn hsti hfact
      obtain ⟨rfl, rfl⟩ := hn
      simp only [AddFact] at hfact
      exact hcommit v .unit _ _ hw hsti (by simp [spec, hfact]) rfl
    | addUnlock v res =>
      rw [hpc] at hpw
      have hw : m.writer = some i := hpw.mpr trivial
      have hfact := h.add i hw
      simp only [hpc, Option.some.injEq, Prod.mk.injEq] at hn hsti hfact
      obtain ⟨rfl, rfl⟩ := hn
      simp only [AddFact] at hfact
      refine ⟨g, .refl g, by simp, ?_⟩
      constructor
      · intro j
        by_cases hj : j = i
        · subst hj; simp [St.goto, PC.writes]
        · simp only [St.goto, upd_ne _ _ hj]
          rw [← h.writer j, hw]; simp; exact fun h' => hj h'.symm
      · intro j
        by_cases hj : j = i
        · subst hj; simp [St.goto, PC.reads, h.excl j hw]
        · simp only [St.goto, upd_ne _ _ hj]; exact h.reader j
      · intro j hj; simp at hj
      · intro _; exact hfact
      · intro j hj; simp at hj
      · intro j hj; simp only [St.goto] at hj; rw [h.excl i hw] at hj; simp at hj
      · intro j
        by_cases hji : j = i
        · subst hji; simp only [St.goto, upd_same]; exact hsti
        · simp only [St.goto, upd_ne _ _ hji]; exact h.st j
    | addRet v res =>
      simp only [hpc, Option.some.injEq, Prod.mk.injEq] at hn hsti
      obtain ⟨rfl, rfl⟩ := hn
      refine ⟨g.retC i res, .step (.refl g) (.retC g i _ _ hsti), rfl, ?_⟩
      have hl := sim_local h i .done (by simp [PC.writes, hpc]) (by simp [PC.reads, hpc]) (by simp [PC.writes]) (by simp [PC.reads]) trivial
      refine ⟨hl.writer, hl.reader, hl.excl, hl.free, hl.add, hl.take, ?_⟩
      intro j
      by_cases hji : j = i
      · subst hji; simp only [St.goto, upd_same, StFact]
      · simp only [St.goto, upd_ne _ _ hji]
        exact stFact_other (h.st j) (by simp [Ghost.retC, upd_ne _ _ hji]) rfl (Nat.le_refl _) (fun k hk => rfl)
    | takeLock =>
      simp only [hpc] at hn hsti
      cases hw : m.writer with
      | some j => simp [hw] at hn
      | none =>
        simp only [hw, Option.some.injEq, Prod.mk.injEq] at hn
        obtain ⟨rfl, rfl⟩ := hn
        refine ⟨g, .refl g, by simp, ?_⟩
        constructor
        · intro j
          by_cases hj : j = i
          · subst hj; simp [St.goto, PC.writes, hw]
          · simp only [St.goto, upd_ne _ _ hj]; exact h.writer j
        · intro j
          by_cases hj : j = i
          · subst hj; simp [St.goto, PC.reads]
          · simp only [St.goto, upd_ne _ _ hj, List.mem_cons, hj, false_or]; exact h.reader j
        · intro j hj; simp only [St.goto] at hj; rw [hw] at hj; simp at hj
        · exact h.free
        · intro j hj; simp only [St.goto] at hj; rw [hw] at hj; simp at hj
        · intro j hj
          by_cases hji : j = i
          · subst hji; simp only [St.goto, upd_same]; trivial
          · simp only [St.goto, upd_ne _ _ hji]
            simp only [List.mem_cons, hji, false_or] at hj
            exact h.take j hj
        · intro j
          by_cases hji : j = i
          · subst hji; simp only [St.goto, upd_same]; exact hsti
          · simp only [St.goto, upd_ne _ _ hji]; exact h.st j
    | takeCmp =>
      rw [hpc] at hpr
      have hrd : i ∈ m.readers := hpr.mpr trivial
      have hw : m.writer = none := by
        cases hw : m.writer with
        | none => rfl
        | some j => rw [h.excl j hw] at hrd; simp at hrd
      have hring := h.free hw
      simp only [hpc, Option.some.injEq, Prod.mk.injEq] at hn hsti
      obtain ⟨rfl, rfl⟩ := hn
      split
      · rename_i hc
        exact hlocal _ (by simp [PC.writes, hpc]) (by simp [PC.reads, hpc]) (by simp [PC.writes]) (fun _ => by rw [hring] at hc; exact hc) hsti
      · rename_i hc
        exact hlocal _ (by simp [PC.writes, hpc]) (by simp [PC.reads, hpc]) (by simp [PC.writes]) (fun _ => by rw [hring] at hc; exact hc) hsti
    | takeBig =>
      rw [hpc] at hpr
      have hrd : i ∈ m.readers := hpr.mpr trivial
      have hw : m.writer = none := by
        cases hw : m.writer with
        | none => rfl
        | some j => rw [h.excl j hw] at hrd; simp at hrd
      have hring := h.free hw
      have hfact := h.take i hrd
      simp only [hpc, Option.some.injEq, Prod.mk.injEq] at hn hsti hfact
      obtain ⟨rfl, rfl⟩ := hn
      simp only [TakeFact] at hfact
      refine hlocal _ (by simp [PC.writes, hpc]) (by simp [PC.reads, hpc]) (by simp [PC.writes]) (fun _ => ?_) hsti
      simp only [TakeFact, hring]
      unfold Ring.take
      simp only [if_pos hfact]
    | takeSmall =>
      rw [hpc] at hpr
      have hrd : i ∈ m.readers := hpr.mpr trivial
      have hw : m.writer = none := by
        cases hw : m.writer with
        | none => rfl
        | some j => rw [h.excl j hw] at hrd; simp at hrd
      have hring := h.free hw
      have hfact := h.take i hrd
      simp only [hpc, Option.some.injEq, Prod.mk.injEq] at hn hsti hfact
      obtain ⟨rfl, rfl⟩ := hn
      simp only [TakeFact] at hfact
      refine hlocal _ (by simp [PC.writes, hpc]) (by simp [PC.reads, hpc]) (by simp [PC.writes]) (fun _ => ?_) hsti
      simp only [TakeFact, hring]
      unfold Ring.take
      simp only [if_neg hfact]
    | takeMake size start =>
      rw [hpc] at hpr
      have hrd : i ∈ m.readers := hpr.mpr trivial
      have hfact := h.take i hrd
      simp only [hpc, Option.some.injEq, Prod.mk.injEq] at hn hsti hfact
      obtain ⟨rfl, rfl⟩ := hn
      simp only [TakeFact] at hfact
      split
      · rename_i hc
        refine hlocal _ (by simp [PC.writes, hpc]) (by simp [PC.reads, hpc]) (by simp [PC.writes]) (fun _ => ?_) hsti
        simp only [TakeFact, hfact, if_pos hc, resOf]
      · rename_i hc
        refine hlocal _ (by simp [PC.writes, hpc]) (by simp [PC.reads, hpc]) (by simp [PC.writes]) (fun _ => ?_) hsti
        simp only [TakeFact, hfact, if_neg hc]
        simp
    | takeLoop start k cnt acc =>
      rw [hpc] at hpr
      have hrd : i ∈ m.readers := hpr.mpr trivial
      have hw : m.writer = none := by
        cases hw : m.writer with
        | none => rfl
        | some j => rw [h.excl j hw] at hrd; simp at hrd
      have hring := h.free hw
      have hfact := h.take i hrd
      simp only [hpc] at hn hsti hfact
      simp only [TakeFact] at hfact
      cases cnt with
      | zero =>
        simp only [Option.some.injEq, Prod.mk.injEq] at hn
        obtain ⟨rfl, rfl⟩ := hn
        refine hlocal _ (by simp [PC.writes, hpc]) (by simp [PC.reads, hpc]) (by simp [PC.writes]) (fun _ => ?_) hsti
        simp [TakeFact, hfact, copyLoop, resOf]
      | succ cnt =>
        simp only [hring] at hn
        cases hx : g.cur.elements[(start + k) % g.cur.elements.length]? with
        | none =>
          simp only [hx, Option.some.injEq, Prod.mk.injEq] at hn
          obtain ⟨rfl, rfl⟩ := hn
          refine hlocal _ (by simp [PC.writes, hpc]) (by simp [PC.reads, hpc]) (by simp [PC.writes]) (fun _ => ?_) hsti
          simp [TakeFact, hfact, copyLoop, resOf, hx]
        | some x =>
          simp only [hx, Option.some.injEq, Prod.mk.injEq] at hn
          obtain ⟨rfl, rfl⟩ := hn
          refine hlocal _ (by simp [PC.writes, hpc]) (by simp [PC.reads, hpc]) (by simp [PC.writes]) (fun _ => ?_) hsti
          simp only [TakeFact, hfact, copyLoop, hx]
          cases copyLoop g.cur.elements start (k + 1) cnt <;> simp
    | takeUnlock res =>
      rw [hpc] at hpr
      have hrd : i ∈ m.readers := hpr.mpr trivial
      have hfact := h.take i hrd
      simp only [hpc, Option.some.injEq, Prod.mk.injEq] at hn hsti hfact
      obtain ⟨rfl, rfl⟩ := hn
      simp only [TakeFact] at hfact
      refine ⟨g, .refl g, by simp, ?_⟩
      constructor
      · intro j
        by_cases hj : j = i
        · subst hj
          have := h.writer j
          rw [hpc] at this
          simpa [St.goto, PC.writes] using this
        · simp only [St.goto, upd_ne _ _ hj]; exact h.writer j
      · intro j
        by_cases hj : j = i
        · subst hj; simp [St.goto, PC.reads]
        · simp only [St.goto, upd_ne _ _ hj, List.mem_filter]
          rw [h.reader j]; simp [hj]
      · intro j hj; simp only [St.goto] at hj ⊢; rw [h.excl j hj]; rfl
      · exact h.free
      · intro j hj
        simp only [St.goto] at hj
        rw [h.excl j hj] at hrd; simp at hrd
      · intro j hj
        by_cases hji : j = i
        · subst hji; simp only [St.goto, upd_same]; trivial
        · simp only [St.goto, upd_ne _ _ hji]
          exact h.take j (List.mem_of_mem_filter hj)
      · intro j
        by_cases hji : j = i
        · subst hji
          simp only [St.goto, upd_same, StFact]
          refine ⟨hsti, g.log.length, ?_, Nat.le_refl _, ?_⟩
          · exact (ginv_reach hg).startLe j
          · show (spec r).step g.cur .take res g.cur
            simp only [spec]
            cases ht : g.cur.take with
            | none => simp [hfact, ht, resOf]
            | some l => simp [hfact, ht, resOf]
        · simp only [St.goto, upd_ne _ _ hji]; exact h.st j
    | takeRet res =>
      simp only [hpc, Option.some.injEq, Prod.mk.injEq] at hn hsti
      obtain ⟨rfl, rfl⟩ := hn
      obtain ⟨hst, k, h1, h2, h3⟩ := hsti
      refine ⟨g.retR i k .take res, .step (.refl g) (.retR g i k _ _ hst h1 h2 h3), rfl, ?_⟩
      have hl := sim_local h i .done (by simp [PC.writes, hpc]) (by simp [PC.reads, hpc]) (by simp [PC.writes]) (by simp [PC.reads]) trivial
      refine ⟨hl.writer, hl.reader, hl.excl, hl.free, hl.add, hl.take, ?_⟩
      intro j
      by_cases hji : j = i
      · subst hji; simp only [St.goto, upd_same, StFact]
      · simp only [St.goto, upd_ne _ _ hji]
        exact stFact_other (h.st j) (by simp [Ghost.retR, upd_ne _ _ hji]) rfl (Nat.le_refl _) (fun k hk => rfl)

theorem sim_init (r : Ring α) : Sim r (start r) (Ghost.init (spec r)) := by
  constructor <;> simp [start, PC.writes, PC.reads, Ghost.init, Ghost.cur, spec, StFact]

/-- A concrete interleaved execution: an `Add` is suspended between its two stores while a `Take` waits; the `Take`
then returns the added value. -/
theorem demo : ∃ m, (machine (⟨[0, 0], 0⟩ : Ring Nat)).Exec m
    [.inv 1 (.add 7), .inv 2 .take, .ret 1 .unit, .ret 2 (.vals [7])] :=
  Mach.exists_exec _ [.inv 1 (.add 7), .run 1, .run 1, .run 1, .inv 2 .take, .run 1, .run 1, .run 1, .run 1,
    .run 2, .run 2, .run 2, .run 2, .run 2, .run 2, .run 2, .run 2] _ rfl

/-- C02: every history of concurrent `Add` and `Take` calls on a ring, under every interleaving of their individual
accesses to the lock, the counter and the slots, is linearizable to the sequential ring. -/
theorem C02_linearizable (r : Ring α) {m : St α} {H : List (Ev (Call α) (Res α))} (h : (machine r).Exec m H) :
    Linearizable (spec r) H := by
  obtain ⟨g, h1, h2, _⟩ := simulate (Sim r) (sim_init r) (fun m g l m' hg hs hst => sim_step r m g l m' hg hs hst) h
  rw [← h2]; exact h1.linearizable

example : Linearizable (spec (⟨[0, 0], 0⟩ : Ring Nat)) [.inv 1 (.add 7), .inv 2 .take, .ret 1 .unit, .ret 2 (.vals [7])] :=
  have ⟨_, h⟩ := demo; C02_linearizable _ h

/-- The ring of the English property: the state is the list of all values added so far; `Take` returns the last `n`. -/
def lastSpec (n : Nat) : Spec (List α) (Call α) (Res α) where
  init := []
  step log op res log' :=
    match op with
    | .add v => res = .unit ∧ log' = log ++ [v]
    | .take => res = .vals (lastN n log) ∧ log' = log

/-- The event is the call of an `Add`. -/
def isAdd : Ev (Call α) (Res α) → Bool
  | .inv _ (.add _) => true
  | _ => false

/-- The number of a call of `Add`. -/
def addId : Ev (Call α) (Res α) → Option Nat
  | .inv i (.add _) => some i
  | _ => none

/-- The number of an `Add` that has taken effect. -/
def opAdd : Nat × Call α × Res α → Option Nat
  | (i, .add _, _) => some i
  | _ => none

theorem runs_last {n : Nat} {r0 : Ring α} : ∀ (L : List (Nat × Call α × Res α)) (r s : Ring α) (log : List α), Rep n log r →
    ((log.length + (L.filterMap opAdd).length : Nat) : Int) < 2 ^ 63 → Runs (spec r0) r L s → ∃ log', Runs (lastSpec n) log L log' := by
  intro L
  induction L with
  | nil => intro r s log _ _ _; exact ⟨log, .nil _⟩
  | cons x L ih =>
    intro r s log hrep hb hruns
    cases hruns with
    | cons hstep hrest =>
      rename_i s1 i op res
      cases op with
      | add v =>
        simp only [List.filterMap_cons, opAdd, List.length_cons] at hb
        obtain ⟨r1, e1, h1⟩ := rep_add hrep v (by omega)
        simp only [spec, e1] at hstep
        obtain ⟨rfl, rfl⟩ := hstep
        obtain ⟨log', hl⟩ := ih _ _ _ h1 (by simp only [List.length_append, List.length_singleton]; omega) hrest
        exact ⟨log', .cons ⟨rfl, rfl⟩ hl⟩
      | take =>
        simp only [List.filterMap_cons, opAdd] at hb
        simp only [spec, rep_take hrep] at hstep
        obtain ⟨rfl, rfl⟩ := hstep
        obtain ⟨log', hl⟩ := ih _ _ _ hrep hb hrest
        exact ⟨log', .cons ⟨rfl, rfl⟩ hl⟩

/-- C02 with C01: on a ring made by `NewRing(n)`, every history with fewer than `2^63` additions is explained by one
sequential order of the calls, consistent with real time, in which every `Take` returns exactly the last `n` values
added before it. In particular no call panics and no `Take` sees a half-finished `Add`. -/
theorem C02_takes_return_last_n (nil : α) (n : Int) (r : Ring α) (hr : newRing nil n = some r) {m : St α}
    {H : List (Ev (Call α) (Res α))} (h : (machine r).Exec m H) (hb : (H.countP isAdd : Int) < 2 ^ 63) :
    Linearizable (lastSpec n.toNat) H := by
  have hn : 1 ≤ n := by
    rcases Int.lt_or_le n 1 with h' | h'
    · rw [(C01_newRing_panics_iff nil n).mpr h'] at hr; simp at hr
    · exact h'
  obtain ⟨r', e, hrep⟩ := rep_new nil hn
  rw [hr] at e
  obtain rfl := Option.some.inj e
  obtain ⟨L, h1, h2, h3, ⟨s, h4⟩, h5⟩ := C02_linearizable r h
  have hsub : (L.filterMap opAdd).length ≤ H.countP isAdd := by
    have e1 : H.countP isAdd = (H.filterMap addId).length := by
      clear h h2 h3 h5 hb
      induction H with
      | nil => rfl
      | cons x H ih =>
        cases x with
        | inv i op => cases op <;> simp [List.filterMap_cons, List.countP_cons, isAdd, addId, ih]
        | ret i res => simp [List.filterMap_cons, isAdd, addId, ih]
    rw [e1]
    refine (List.Nodup.subperm ?_ ?_).length_le
    · clear h2 h3 h4 h5
      induction L with
      | nil => simp
      | cons x L ih =>
        obtain ⟨i, op, res⟩ := x
        simp only [List.map_cons, List.nodup_cons] at h1
        cases op with
        | take => simpa [List.filterMap_cons, opAdd] using ih h1.2
        | add v =>
          simp only [List.filterMap_cons, opAdd, List.nodup_cons]
          refine ⟨?_, ih h1.2⟩
          intro hm
          apply h1.1
          rw [List.mem_filterMap] at hm
          obtain ⟨⟨i', op', res'⟩, hm, he⟩ := hm
          cases op' <;> simp [opAdd] at he
          subst he
          exact List.mem_map.mpr ⟨_, hm, rfl⟩
    · intro i hi
      rw [List.mem_filterMap] at hi ⊢
      obtain ⟨⟨i', op', res'⟩, hm, he⟩ := hi
      cases op' <;> simp [opAdd] at he
      subst he
      exact ⟨_, h2 _ hm, rfl⟩
  obtain ⟨log', hl⟩ := runs_last L r s [] hrep (by simp only [List.length_nil]; omega) h4
  exact ⟨L, h1, h2, h3, ⟨log', hl⟩, h5⟩

example : Linearizable (lastSpec 2) ([.inv 1 (.add 7), .inv 2 .take, .ret 1 .unit, .ret 2 (.vals [7])] : List (Ev (Call Nat) (Res Nat))) :=
  have ⟨_, h⟩ := demo; C02_takes_return_last_n 0 2 _ rfl h (by decide)

/-- No deadlock: whenever some call has started and not returned, some call can take a step. -/
theorem C02_progress (r : Ring α) {m : St α} {H : List (Ev (Call α) (Res α))} (h : (machine r).Exec m H)
    (i : Nat) (h1 : m.pc i ≠ .idle) (h2 : m.pc i ≠ .done) : ∃ j x, next m j = some x := by
  obtain ⟨g, _, _, hs⟩ := simulate (Sim r) (sim_init r) (fun m g l m' hg hs hst => sim_step r m g l m' hg hs hst) h
  have hwriter : ∀ j, m.writer = some j → ∃ x, next m j = some x := by
    intro j hj
    have hw := (hs.writer j).mp hj
    unfold next
    cases hp : m.pc j <;> simp [hp, PC.writes] at hw ⊢
    split
    · simp
    · split <;> simp
  have hreader : ∀ j, j ∈ m.readers → ∃ x, next m j = some x := by
    intro j hj
    have hw := (hs.reader j).mp hj
    unfold next
    cases hp : m.pc j <;> simp [hp, PC.reads] at hw ⊢
    split
    · simp
    · split <;> simp
  cases hw : m.writer with
  | some j => exact ⟨j, hwriter j hw⟩
  | none =>
    cases hr : m.readers with
    | cons j rs => exact ⟨j, hreader j (by rw [hr]; simp)⟩
    | nil =>
      refine ⟨i, ?_⟩
      have a := hs.writer i
      have b := hs.reader i
      rw [hw] at a
      rw [hr] at b
      unfold next
      cases hp : m.pc i <;> simp_all [PC.writes, PC.reads]

/-- A call that waits for the lock while the lock is held by another one. -/
example : ∃ m H, (machine (⟨[0, 0], 0⟩ : Ring Nat)).Exec m H ∧ m.pc 2 ≠ .idle ∧ m.pc 2 ≠ .done ∧ next m 2 = none ∧ ∃ j x, next m j = some x := by
  obtain ⟨m, h, h1, h2, h3⟩ := Mach.exists_exec_state (machine (⟨[0, 0], 0⟩ : Ring Nat)) [.inv 1 (.add 7), .run 1, .inv 2 .take]
    [.inv 1 (.add 7), .inv 2 .take] (fun m => m.pc 2 ≠ .idle ∧ m.pc 2 ≠ .done ∧ next m 2 = none)
    (by refine And.intro rfl (And.intro ?_ (And.intro ?_ rfl)) <;> intro h <;> cases h)
  exact ⟨m, _, h, h1, h2, h3, C02_progress _ h 2 h1 h2⟩

end Verif.XRing.Conc

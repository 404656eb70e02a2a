import Verif.XSync.MapConcProps
/-!
# Properties of the concurrent map: examples, refutations, progress

C22 (refutation), C85 (no panic, every call can be completed), C86 (calls of the user functions).
-/
namespace Verif.XSync.MapConc
open Verif.Conc Verif.Go

section
/-! ## C22: the refutation -/

/-- For the concrete cases: the function that adds one. -/
def inc : Nat → Nat → Nat → Nat := fun _ v _ => v + 1

/-- Two increments of the value 0 both return 1 (and apply the function to 0); the value is 1 in the end. -/
def lostUpdate : List (Ev (Op Nat Nat) (Res Nat Nat)) :=
  [.inv 1 (.store 0 0), .ret 1 .unit, .inv 2 (.load 0), .ret 2 (.value (some 0)),
   .inv 3 (.computeIfPresent 0 inc), .inv 4 (.computeIfPresent 0 inc), .ret 4 (.present (some (0, 1))), .ret 3 (.present (some (0, 1))),
   .inv 5 (.load 0), .ret 5 (.value (some 1))]

theorem lostUpdate_exec : ∃ m, (prog (K := Nat) (V := Nat)).mach.Exec m lostUpdate :=
  Mach.exists_exec _ ([.inv 1 (.store 0 0)] ++ runs 9 1 ++ [.inv 2 (.load 0)] ++ runs 8 2 ++ [.inv 3 (.computeIfPresent 0 inc)] ++ runs 3 3 ++
    [.inv 4 (.computeIfPresent 0 inc)] ++ runs 5 4 ++ runs 4 3 ++ [.inv 5 (.load 0)] ++ runs 3 5) _ rfl

/-- After the value has reached `n`, loads and increments meet values of at least `n` only. -/
theorem inc_mono : ∀ (L : List (Nat × Op Nat Nat × Res Nat Nat)) (s s' : M Nat Nat) (n : Nat), Runs (strictSpec (K := Nat) (V := Nat)) s L s' →
    (∀ x ∈ L, x.2.1 = .load 0 ∨ x.2.1 = .computeIfPresent 0 inc) → (∃ c, s 0 = some c ∧ n ≤ c) →
    ∀ i w v, (i, Op.computeIfPresent 0 inc, Res.present (some (w, v))) ∈ L → n ≤ w := by
  intro L
  induction L with
  | nil => intro s s' n _ _ _ i w v h; simp at h
  | cons x L ih =>
    intro s s' n hr hall hs i w v hm
    obtain ⟨j, op, r⟩ := x
    cases hr with
    | cons h1 h2 =>
    rename_i s1
    obtain ⟨c, hc, hn⟩ := hs
    have hop := hall (j, op, r) (by simp)
    have hs1 : (∃ c, s1 0 = some c ∧ n ≤ c) ∧ ∀ w v, op = .computeIfPresent 0 inc → r = .present (some (w, v)) → n ≤ w := by
      obtain ⟨h3, h4⟩ := h1
      rcases hop with hop | hop <;> simp only at hop <;> subst hop
      · cases h3; exact ⟨⟨c, hc, hn⟩, by simp⟩
      · generalize hq : (Op.computeIfPresent 0 inc : Op Nat Nat) = q at h3
        cases h3 <;> simp only [Op.computeIfPresent.injEq, reduceCtorEq] at hq
        · rename_i hnone
          rw [← hq.1, hc] at hnone; simp at hnone
        · rename_i k f w w' c' hw
          obtain ⟨rfl, rfl⟩ := hq
          have := h4 0 inc w (inc 0 w c') rfl rfl
          rw [hc] at this
          simp only [Option.some.injEq] at this
          subst this
          refine ⟨⟨c + 1, by simp [M.put, inc], by omega⟩, ?_⟩
          intro w2 v2 _ he
          simp only [Res.present.injEq, Option.some.injEq, Prod.mk.injEq] at he
          omega
    simp only [List.mem_cons, Prod.mk.injEq] at hm
    rcases hm with ⟨_, h3, h4⟩ | hm
    · exact hs1.2 w v h3.symm h4.symm
    · exact ih s1 s' n h2 (fun x hx => hall x (by simp [hx])) hs1.1 i w v hm

theorem lostUpdate_not_linearizable : ¬ Linearizable (strictSpec (K := Nat) (V := Nat)) lostUpdate := by
  rintro ⟨L, h1, h2, h3, ⟨s, h4⟩, h5⟩
  have hin : ∀ i op r, (i, op, r) ∈ L → (i = 1 ∧ op = .store 0 0) ∨ (i = 2 ∧ op = .load 0) ∨ (i = 3 ∧ op = .computeIfPresent 0 inc) ∨
      (i = 4 ∧ op = .computeIfPresent 0 inc) ∨ (i = 5 ∧ op = .load 0) := by
    intro i op r h
    have := h2 _ h
    simpa [lostUpdate] using this
  have get : ∀ i r, Ev.ret i r ∈ lostUpdate → (i = 3 ∨ i = 4) → (i, Op.computeIfPresent 0 inc, r) ∈ L := by
    intro i r h hi
    obtain ⟨op, ho⟩ := h3 i r h
    have := hin i op r ho
    have hop : op = .computeIfPresent 0 inc := by
      rcases this with ⟨a, b⟩ | ⟨a, b⟩ | ⟨a, b⟩ | ⟨a, b⟩ | ⟨a, b⟩ <;> first | exact b | omega
    rw [← hop]; exact ho
  have m3 := get 3 (.present (some (0, 1))) (by simp [lostUpdate]) (by simp)
  have m4 := get 4 (.present (some (0, 1))) (by simp [lostUpdate]) (by simp)
  have bef : ∀ i, i = 3 ∨ i = 4 → Before lostUpdate 1 i := by
    intro i hi
    refine ⟨[.inv 1 (.store 0 0), .ret 1 .unit], lostUpdate.drop 2, .unit, .computeIfPresent 0 inc, rfl, by simp, ?_⟩
    rcases hi with rfl | rfl <;> simp [lostUpdate]
  have key : ∀ a b L1 L2, (a = 3 ∨ a = 4) → L = L1 ++ (a, Op.computeIfPresent 0 inc, Res.present (some (0, 1))) :: L2 →
      (b, Op.computeIfPresent 0 inc, Res.present (some (0, 1))) ∈ L2 → False := by
    intro a b L1 L2 ha hL hb
    subst hL
    obtain ⟨s1, s2, hs1, hs2⟩ : ∃ s1 s2, strictSpec.step s1 (.computeIfPresent 0 inc) (.present (some (0, 1))) s2 ∧ Runs strictSpec s2 L2 s := by
      clear h1 h2 h3 h5 hin get m3 m4
      generalize (strictSpec (K := Nat) (V := Nat)).init = s0 at h4
      induction L1 generalizing s0 with
      | nil => cases h4 with | cons a1 a2 => exact ⟨_, _, a1, a2⟩
      | cons x L1 ih => cases h4 with | cons a1 a2 => exact ih _ a2
    have hv : s2 0 = some 1 := by
      obtain ⟨a1, _⟩ := hs1
      generalize hq : Op.computeIfPresent 0 inc = q at a1
      generalize hq2 : Res.present (some (0, 1)) = q2 at a1
      cases a1 <;> simp only [Op.computeIfPresent.injEq, reduceCtorEq, Res.present.injEq] at hq hq2
      rename_i k f w w' c' hw
      obtain ⟨rfl, rfl⟩ := hq
      simp only [Option.some.injEq, Prod.mk.injEq] at hq2
      simp [M.put, ← hq2.2]
    have hall : ∀ x ∈ L2, x.2.1 = Op.load 0 ∨ x.2.1 = .computeIfPresent 0 inc := by
      rintro ⟨i, op, r⟩ hx
      have hmem : (i, op, r) ∈ L1 ++ (a, Op.computeIfPresent 0 inc, Res.present (some (0, 1))) :: L2 := by simp [hx]
      rcases hin i op r hmem with ⟨rfl, rfl⟩ | ⟨_, rfl⟩ | ⟨_, rfl⟩ | ⟨_, rfl⟩ | ⟨_, rfl⟩
      · exfalso
        have := (List.pairwise_append.1 h5).2.1
        rw [List.pairwise_cons] at this
        exact this.1 _ hx (bef a ha)
      all_goals simp
    have := inc_mono L2 s2 s 1 hs2 hall ⟨1, hv, Nat.le_refl 1⟩ b 0 1 hb
    omega
  obtain ⟨L1, L2, hL⟩ := List.append_of_mem m3
  rw [hL] at m4
  simp only [List.mem_append, List.mem_cons, Prod.mk.injEq] at m4
  rcases m4 with m4 | m4 | m4
  · obtain ⟨L3, L4, hL'⟩ := List.append_of_mem m4
    subst hL'
    exact key 4 3 L3 (L4 ++ (3, Op.computeIfPresent 0 inc, Res.present (some (0, 1))) :: L2) (Or.inr rfl) (by simpa using hL) (by simp)
  · omega
  · exact key 3 4 L1 L2 (Or.inl rfl) hL m4

/-- **C22 is false as stated.** There is an execution in which two concurrent increments by `ComputeIfPresent` both succeed and one of them
is lost; its history is not linearizable with respect to an ordinary map with an atomic `ComputeIfPresent`. -/
theorem C22_lost_update_refuted : ∃ m, (prog (K := Nat) (V := Nat)).mach.Exec m lostUpdate ∧ ¬ Linearizable (strictSpec (K := Nat) (V := Nat)) lostUpdate :=
  lostUpdate_exec.elim fun m hm => ⟨m, hm, lostUpdate_not_linearizable⟩

end

variable {K V : Type} [DecidableEq K] [DecidableEq V]

/-! ## C85 -/

/-- **C85.** No operation panics. -/
theorem C85_no_panic {m : Conf (G K V) (Op K V) (Res K V) (Pt K V)} {H : List (Ev (Op K V) (Res K V))} (h : prog.mach.Exec m H) (i : Nat) :
    Ev.ret i .panic ∉ H := by
  intro hp
  obtain ⟨L, st, hL, _⟩ := observed h
  obtain ⟨op, ho⟩ := hL.returned i _ hp
  obtain ⟨n, hn⟩ := List.getElem?_of_mem ho
  have := hL.legal n _ _ _ hn
  have hd : Does (st n) op .panic (st (n + 1)) := this
  generalize st n = s at hd
  generalize st (n + 1) = s' at hd
  cases hd

example := demo.elim fun _ h => C85_no_panic h 4

/-- A call that is not waiting for the lock can make a step; whether it can does not depend on the state of the map. -/
theorem enabled_any {g : G K V} (g' : G K V) {v : Vw K V} {gh : Gh K V} {i : Nat} {op : Op K V} {s : Pt K V} (hI : I g v gh) (hv : v i = some (op, .inl s))
    (hl : s = .lock → g'.mu = none) : ∃ y, step g' i op s 0 = some y := by
  have hf := hI.floc i op s hv
  have hll := hI.lloc i op s hv
  cases s with
  | call m e p =>
    obtain ⟨_, _, h3, _⟩ := hf
    simp only [step]
    cases hc : callF op p 0 with
    | none => rw [hc] at h3; simp at h3
    | some y => exact ⟨_, rfl⟩
  | cas m e p x => simp only [step]; split <;> exact ⟨_, rfl⟩
  | lock => simp [step, hl rfl]
  | unexp e =>
    obtain ⟨k, hk, _⟩ := hll rfl
    simp only [step, hk]
    split
    · split <;> exact ⟨_, rfl⟩
    · exact ⟨_, rfl⟩
  | storeLocked e => obtain ⟨_, k, w, rfl⟩ := hf; exact ⟨_, rfl⟩
  | build0 rm => simp only [step]; split <;> exact ⟨_, rfl⟩
  | build rm todo =>
    simp only [step]
    split
    · exact ⟨_, rfl⟩
    · rename_i hne
      have hpos : 0 < todo.length := List.length_pos_iff.2 hne
      rw [List.getElem?_eq_getElem (by exact Nat.mod_lt _ hpos)]
      exact ⟨_, rfl⟩
  | buildE rm rest k e =>
    simp only [step]
    split
    · exact ⟨_, rfl⟩
    · exact ⟨_, rfl⟩
    · split <;> exact ⟨_, rfl⟩
  | buildC rm rest k e => simp only [step]; split <;> exact ⟨_, rfl⟩
  | amend rm =>
    obtain ⟨_, ha⟩ := hf
    cases op <;> simp only [Op.adds, Bool.false_eq_true] at ha <;> exact ⟨_, rfl⟩
  | addCall => obtain ⟨_, k, f, rfl⟩ := hf; exact ⟨_, rfl⟩
  | add x =>
    obtain ⟨_, k, hk, _⟩ := hll rfl
    simp only [step, hk]
    split <;> exact ⟨_, rfl⟩
  | del e => simp only [step]; split <;> exact ⟨_, rfl⟩
  | delCas e p => simp only [step]; split <;> exact ⟨_, rfl⟩
  | iter todo vis =>
    simp only [step]
    split
    · exact ⟨_, rfl⟩
    · rename_i hne
      have hpos : 0 < todo.length := List.length_pos_iff.2 hne
      rw [List.getElem?_eq_getElem (by exact Nat.mod_lt _ hpos)]
      simp only
      split <;> exact ⟨_, rfl⟩
  | icall todo vis k w => obtain ⟨_, ⟨f, rfl⟩, _⟩ := hf; exact ⟨_, rfl⟩
  | _ => exact ⟨_, rfl⟩

/-- A call that is not waiting for the lock can make a step. -/
theorem enabled {g : G K V} {v : Vw K V} {gh : Gh K V} {i : Nat} {op : Op K V} {s : Pt K V} (hI : I g v gh) (hv : v i = some (op, .inl s))
    (hl : s = .lock → g.mu = none) : ∃ y, step g i op s 0 = some y := enabled_any g hI hv hl

/-- A measure that decreases when a call runs alone. -/
def rank (g : G K V) : Pt K V → Nat × Nat
  | .start => (20, 0)
  | .tryLoad m _ => (if m = .free then 19 else 14, 5)
  | .call m _ _ => (if m = .free then 19 else 14, 4)
  | .cas m e p _ => (if m = .free then 19 else 14, if g.p e = p then 1 else 3)
  | .reload m _ _ => (if m = .free then 19 else 14, 2)
  | .lock => (18, 0)
  | .locked => (17, 0)
  | .unexp _ => (16, 0)
  | .storeLocked _ => (15, 0)
  | .build0 _ => (14, 0)
  | .build _ todo => (13, 4 * todo.length)
  | .buildE _ rest _ e => (13, 4 * rest.length + if g.p e = .nil then 2 else 1)
  | .buildC _ rest _ e => (13, 4 * rest.length + if g.p e = .nil then 1 else 2)
  | .amend _ => (12, 0)
  | .addCall => (11, 0)
  | .add _ => (10, 0)
  | .miss _ => (9, 0)
  | .promote _ => (8, 0)
  | .rpromote => (8, 0)
  | .unlock _ => (7, 0)
  | .eload _ => (6, 0)
  | .del _ => (6, 2)
  | .delCas e p => (6, if g.p e = p then 1 else 3)
  | .iter todo _ => (6, 2 * todo.length + 1)
  | .icall todo _ _ _ => (6, 2 * todo.length + 2)

/-- Proof only: part of a measure; models no code. -/
def rankLt (a b : Nat × Nat) : Prop := a.1 < b.1 ∨ (a.1 = b.1 ∧ a.2 < b.2)

theorem rankLt_wf : WellFounded rankLt := by
  have : rankLt = Prod.Lex (· < ·) (· < ·) := by
    funext ⟨a, b⟩ ⟨c, d⟩
    simp [rankLt, Prod.lex_def]
  rw [this]
  exact (Prod.lex ⟨_, Nat.lt_wfRel.wf⟩ ⟨_, Nat.lt_wfRel.wf⟩).wf

theorem decide_rank {g : G K V} {op : Op K V} {m : Mode} {e : Nat} {D : Dec K V} {s' : Pt K V} {n : Nat} (hn : n = 2 ∨ n = 5)
    (hD : D = .call → n = 5) (h : decide' op m e (g.p e) D = .inl s') : rankLt (rank g s') (if m = .free then 19 else 14, n) := by
  cases D with
  | fail => cases m <;> simp only [decide', after, Sum.inl.injEq] at h <;> subst h <;> simp [rankLt, rank]
  | done r => cases m <;> simp only [decide', after, Sum.inl.injEq, reduceCtorEq] at h <;> subst h <;> simp [rankLt, rank]
  | cas x => simp only [decide', Sum.inl.injEq] at h; subst h; simp [rankLt, rank]; omega
  | call => simp only [decide', Sum.inl.injEq] at h; subst h; simp [rankLt, rank]; have := hD rfl; omega

theorem locked_rank (g g' : G K V) (op : Op K V) : (rank g' (lockedStep g op).2).1 < 17 := by
  unfold lockedStep
  split <;> (repeat' split) <;> simp [rank]

theorem rank_step {g g' : G K V} {i : Nat} {op : Op K V} {s s' : Pt K V} {c : Nat} (h : step g i op s c = some (g', .inl s')) :
    rankLt (rank g' s') (rank g s) := by
  cases s with
  | start =>
    simp only [step, Option.some.injEq, Prod.mk.injEq] at h
    obtain ⟨rfl, h⟩ := h
    cases op <;> simp only [startStep] at h <;> (split at h <;> try split at h) <;> simp only [Sum.inl.injEq, reduceCtorEq] at h <;>
      subst h <;> simp [rankLt, rank]
  | tryLoad m e =>
    simp only [step, Option.some.injEq, Prod.mk.injEq] at h
    obtain ⟨rfl, h⟩ := h
    exact decide_rank (Or.inr rfl) (fun _ => rfl) h
  | call m e p =>
    simp only [step] at h
    split at h <;> simp only [Option.some.injEq, Prod.mk.injEq, Sum.inl.injEq, reduceCtorEq] at h
    obtain ⟨rfl, rfl⟩ := h
    simp only [rankLt, rank, true_and]
    right; split <;> omega
  | cas m e p x =>
    simp only [step] at h
    split at h <;> simp only [Option.some.injEq, Prod.mk.injEq, Sum.inl.injEq] at h
    · obtain ⟨rfl, h⟩ := h
      cases m <;> simp only [after, Sum.inl.injEq, reduceCtorEq] at h <;> subst h <;> simp [rankLt, rank]
    · rename_i hne
      obtain ⟨rfl, rfl⟩ := h
      simp [rankLt, rank, hne]
  | reload m e x =>
    simp only [step, Option.some.injEq, Prod.mk.injEq] at h
    obtain ⟨rfl, h⟩ := h
    refine decide_rank (Or.inl rfl) ?_ h
    intro hc
    cases op <;> cases hp : g.p e <;> simp [again, hp] at hc
  | lock =>
    simp only [step] at h
    split at h <;> simp only [Option.some.injEq, Prod.mk.injEq, Sum.inl.injEq, reduceCtorEq] at h
    obtain ⟨rfl, rfl⟩ := h
    simp [rankLt, rank]
  | locked =>
    simp only [step, Option.some.injEq, Prod.mk.injEq, Sum.inl.injEq] at h
    obtain ⟨rfl, rfl⟩ := h
    exact Or.inl (locked_rank _ _ _)
  | unexp e =>
    simp only [step] at h
    split at h
    · split at h
      · simp at h
      · split at h <;> simp only [Option.some.injEq, Prod.mk.injEq, Sum.inl.injEq, reduceCtorEq, and_false] at h
        obtain ⟨rfl, rfl⟩ := h
        cases op <;> simp [afterUnexp, rankLt, rank]
    · simp only [Option.some.injEq, Prod.mk.injEq, Sum.inl.injEq] at h
      obtain ⟨rfl, rfl⟩ := h
      cases op <;> simp [afterUnexp, rankLt, rank]
  | storeLocked e =>
    simp only [step] at h
    split at h <;> simp only [Option.some.injEq, Prod.mk.injEq, Sum.inl.injEq, reduceCtorEq] at h
    obtain ⟨rfl, rfl⟩ := h
    simp [rankLt, rank]
  | miss k =>
    simp only [step, Option.some.injEq, Prod.mk.injEq, Sum.inl.injEq] at h
    obtain ⟨rfl, rfl⟩ := h
    split <;> simp [rankLt, rank]
  | promote k =>
    simp only [step, Option.some.injEq, Prod.mk.injEq, Sum.inl.injEq] at h
    obtain ⟨rfl, rfl⟩ := h
    simp [rankLt, rank]
  | rpromote =>
    simp only [step, Option.some.injEq, Prod.mk.injEq, Sum.inl.injEq] at h
    obtain ⟨rfl, rfl⟩ := h
    simp [rankLt, rank]
  | build0 rm =>
    simp only [step] at h
    split at h <;> simp only [Option.some.injEq, Prod.mk.injEq, Sum.inl.injEq] at h <;> obtain ⟨rfl, rfl⟩ := h <;> simp [rankLt, rank]
  | build rm todo =>
    simp only [step] at h
    split at h
    · simp only [Option.some.injEq, Prod.mk.injEq, Sum.inl.injEq] at h
      obtain ⟨rfl, rfl⟩ := h
      simp [rankLt, rank]
    · rename_i hne
      split at h
      · simp at h
      · rename_i y hy
        simp only [Option.some.injEq, Prod.mk.injEq, Sum.inl.injEq] at h
        obtain ⟨rfl, rfl⟩ := h
        have hlen := (erase_perm hy).length_eq
        simp only [List.length_cons] at hlen
        refine Or.inr ⟨rfl, ?_⟩
        simp only [rank]
        split <;> omega
  | buildE rm rest k e =>
    simp only [step] at h
    split at h
    · rename_i hp
      simp only [Option.some.injEq, Prod.mk.injEq, Sum.inl.injEq] at h
      obtain ⟨rfl, rfl⟩ := h
      simp [rankLt, rank, hp]
    · rename_i hp
      simp only [Option.some.injEq, Prod.mk.injEq, Sum.inl.injEq] at h
      obtain ⟨rfl, rfl⟩ := h
      simp [rankLt, rank, hp]
    · rename_i hp
      split at h <;> simp only [Option.some.injEq, Prod.mk.injEq, Sum.inl.injEq, reduceCtorEq, and_false] at h
      obtain ⟨rfl, rfl⟩ := h
      simp [rankLt, rank, hp]
  | buildC rm rest k e =>
    simp only [step] at h
    split at h
    · rename_i hp
      simp only [Option.some.injEq, Prod.mk.injEq, Sum.inl.injEq] at h
      obtain ⟨rfl, rfl⟩ := h
      simp [rankLt, rank, hp]
    · rename_i hp
      simp only [Option.some.injEq, Prod.mk.injEq, Sum.inl.injEq] at h
      obtain ⟨rfl, rfl⟩ := h
      simp [rankLt, rank, hp]
  | amend rm =>
    simp only [step] at h
    split at h <;> simp only [Option.some.injEq, Prod.mk.injEq, Sum.inl.injEq, reduceCtorEq] at h
    rename_i s1 hs
    obtain ⟨rfl, rfl⟩ := h
    cases op <;> simp only [afterAmend, Option.some.injEq, reduceCtorEq] at hs <;> subst hs <;> simp [rankLt, rank]
  | addCall =>
    simp only [step] at h
    split at h <;> simp only [Option.some.injEq, Prod.mk.injEq, Sum.inl.injEq, reduceCtorEq] at h
    obtain ⟨rfl, rfl⟩ := h
    simp [rankLt, rank]
  | add x =>
    simp only [step] at h
    split at h
    · simp at h
    · split at h <;> simp only [Option.some.injEq, Prod.mk.injEq, Sum.inl.injEq, reduceCtorEq, and_false] at h
      obtain ⟨rfl, rfl⟩ := h
      simp [rankLt, rank]
  | unlock k =>
    simp only [step, Option.some.injEq, Prod.mk.injEq] at h
    obtain ⟨rfl, h⟩ := h
    cases k <;> simp only [Cont.go, Sum.inl.injEq, reduceCtorEq] at h <;> subst h <;> simp [rankLt, rank]
  | eload e => simp [step] at h
  | del e =>
    simp only [step] at h
    split at h <;> simp only [Option.some.injEq, Prod.mk.injEq, Sum.inl.injEq, reduceCtorEq, and_false] at h
    rename_i hp
    obtain ⟨rfl, rfl⟩ := h
    simp [rankLt, rank, hp]
  | delCas e p =>
    simp only [step] at h
    split at h <;> simp only [Option.some.injEq, Prod.mk.injEq, Sum.inl.injEq, reduceCtorEq, and_false] at h
    rename_i hp
    obtain ⟨rfl, rfl⟩ := h
    simp [rankLt, rank, hp]
  | iter todo vis =>
    simp only [step] at h
    split at h
    · simp at h
    · split at h
      · simp at h
      · rename_i y hy
        have hlen := (erase_perm hy).length_eq
        simp only [List.length_cons] at hlen
        split at h <;> simp only [Option.some.injEq, Prod.mk.injEq, Sum.inl.injEq] at h <;> obtain ⟨rfl, rfl⟩ := h <;>
          refine Or.inr ⟨rfl, ?_⟩ <;> simp only [rank] <;> omega
  | icall todo vis k w =>
    simp only [step] at h
    split at h <;> simp only [Option.some.injEq, Prod.mk.injEq, reduceCtorEq] at h
    obtain ⟨rfl, h⟩ := h
    split at h <;> simp only [Sum.inl.injEq, reduceCtorEq] at h
    subst h
    simp [rankLt, rank]

/-- A call changes the holder of the lock only to itself or nobody. -/
theorem mu_step {g g' : G K V} {i : Nat} {op : Op K V} {s : Pt K V} {c : Nat} {x : Pt K V ⊕ Res K V} (h : step g i op s c = some (g', x))
    (hm : g.mu = none ∨ g.mu = some i) : g'.mu = none ∨ g'.mu = some i := by
  unfold step at h
  split at h <;> (try simp only [G.setDirty, G.setP, G.promoted, lockedStep] at h) <;> grind

/-- A call that runs alone returns. -/
theorem solo {m : Conf (G K V) (Op K V) (Res K V) (Pt K V)} {H : List (Ev (Op K V) (Res K V))} {i : Nat} {op : Op K V} {s : Pt K V}
    (h : prog.mach.Exec m H) (hpc : m.pc i = .at op s) (hm : m.g.mu = none ∨ m.g.mu = some i) :
    ∃ m' r, prog.mach.Exec m' (H ++ [.ret i r]) ∧ m'.g.mu = none ∧ (∀ j, j ≠ i → m'.pc j = m.pc j) ∧
      (∀ j, j ≠ i → prog.mach.Without j m H m' (H ++ [.ret i r])) ∧ prog.mach.Leads m H m' (H ++ [.ret i r]) := by
  generalize hk : rank m.g s = n
  induction n using rankLt_wf.induction generalizing m s with
  | _ n ih =>
  obtain ⟨gh, hg, _, hI⟩ := simulation h
  have hv : m.view i = some (op, .inl s) := by simp [Conf.view, hpc, Proc.view]
  obtain ⟨⟨g', x⟩, hx⟩ := enabled hI hv (fun hs => by
    rcases hm with hm | hm
    · exact hm
    · have := (hI.mu i op s hv).2 hm
      subst hs; simp [Pt.holds] at this)
  have hm' := mu_step hx hm
  cases x with
  | inl s' =>
    have hnx : prog.mach.next m i 0 = some (none, ⟨g', upd m.pc i (.at op s')⟩) := by
      simp only [Prog.mach, hpc]
      rw [show prog.step m.g i op s 0 = some (g', .inl s') from hx]
    have hst : prog.mach.Step m none ⟨g', upd m.pc i (.at op s')⟩ := .run _ i 0 _ _ hnx
    obtain ⟨m2, r, h1, h2, h3, h4, h5⟩ := ih (rank g' s') (by rw [← hk]; exact rank_step hx) (m := ⟨g', upd m.pc i (.at op s')⟩) (.tau h hst) (by simp) hm' rfl
    exact ⟨m2, r, h1, h2, fun j hj => by rw [h3 j hj]; simp [upd_ne _ _ hj], fun j hj => .tau (Ne.symm hj) hnx (h4 j hj), .tau hnx h5⟩
  | inr r =>
    have hnx : prog.mach.next m i 0 = some (none, ⟨g', upd m.pc i (.ret op r)⟩) := by
      simp only [Prog.mach, hpc]
      rw [show prog.step m.g i op s 0 = some (g', .inr r) from hx]
    have hst : prog.mach.Step m none ⟨g', upd m.pc i (.ret op r)⟩ := .run _ i 0 _ _ hnx
    have he : prog.mach.Exec ⟨g', upd m.pc i (.ret op r)⟩ H := .tau h hst
    have hnx2 : prog.mach.next ⟨g', upd m.pc i (.ret op r)⟩ i 0 = some (some (.ret i r), ⟨g', upd (upd m.pc i (.ret op r)) i (.done op r)⟩) := by
      simp [Prog.mach]
    refine ⟨_, r, .ev he (.run _ i 0 _ _ hnx2), ?_, fun j hj => by simp [upd_ne _ _ hj],
      fun j hj => .tau (Ne.symm hj) hnx (.ev (Ne.symm hj) hnx2 .refl), .tau hnx (.ev hnx2 .refl)⟩
    rcases hm' with hm' | hm'
    · exact hm'
    · exfalso
      obtain ⟨gh2, _, _, hI2⟩ := simulation he
      obtain ⟨o, t, a1, _⟩ := hI2.muIn i hm'
      simp [Conf.view, Proc.view] at a1

/-- **C85.** There is no deadlock: from every reachable state, every call that has not returned can still return, without new calls. -/
theorem C85_no_deadlock {m : Conf (G K V) (Op K V) (Res K V) (Pt K V)} {H : List (Ev (Op K V) (Res K V))} (h : prog.mach.Exec m H) {i : Nat}
    {op : Op K V} (hi : Ev.inv i op ∈ H) (hr : ∀ r, Ev.ret i r ∉ H) : ∃ m' H' r, prog.mach.Leads m H m' (H ++ H') ∧ Ev.ret i r ∈ H' := by
  have main : ∀ (m : Conf (G K V) (Op K V) (Res K V) (Pt K V)) H, prog.mach.Exec m H → (m.g.mu = none ∨ m.g.mu = some i) →
      ((∃ s, m.pc i = .at op s) ∨ ∃ r, m.pc i = .ret op r) → ∃ m' H' r, prog.mach.Leads m H m' (H ++ H') ∧ Ev.ret i r ∈ H' := by
    intro m H h hm hp
    rcases hp with ⟨s, hp⟩ | ⟨r, hp⟩
    · obtain ⟨m', r, _, _, _, _, h1⟩ := solo h hp hm
      exact ⟨m', _, r, h1, by simp⟩
    · have hn : prog.mach.next m i 0 = some (some (.ret i r), ⟨m.g, upd m.pc i (.done op r)⟩) := by simp [Prog.mach, hp]
      exact ⟨_, _, r, .ev hn .refl, by simp⟩
  have hp := prog.pending h hi hr
  cases hmu : m.g.mu with
  | none => exact main m H h (Or.inl hmu) hp
  | some j =>
    by_cases hj : j = i
    · subst hj; exact main m H h (Or.inr hmu) hp
    · obtain ⟨gh, _, _, hI⟩ := simulation h
      obtain ⟨o, s, h1, _⟩ := hI.muIn j hmu
      have hpj : m.pc j = .at o s := by
        simp only [Conf.view] at h1
        cases hq : m.pc j <;> simp [hq, Proc.view] at h1
        rw [h1.1, h1.2]
      obtain ⟨m', r, h2, h3, h4, _, h7⟩ := solo h hpj (Or.inr hmu)
      obtain ⟨m2, H2, r2, h5, h6⟩ := main m' _ h2 (Or.inl h3) (by rw [h4 i (Ne.symm hj)]; exact hp)
      exact ⟨m2, [.ret j r] ++ H2, r2, by simpa using h7.trans h5, by simp [h6]⟩

/-- C85 is not vacuous: a `Store` waits for the lock held by a `ComputeIfAbsent`. -/
theorem demoBlocked : ∃ m, (prog (K := Nat) (V := Nat)).mach.Exec m [.inv 1 (.computeIfAbsent 0 fun _ _ => 5), .inv 2 (.store 0 6)] ∧ m.g.mu = some 1 ∧
    m.pc 2 = .at (.store 0 6) .lock :=
  Mach.exists_exec_state _ ([.inv 1 (.computeIfAbsent 0 fun _ _ => 5)] ++ runs 4 1 ++ [.inv 2 (.store 0 6)] ++ runs 1 2) _ _ (by exact And.intro rfl (And.intro rfl rfl))

example := demoBlocked.imp fun _ h => C85_no_deadlock (i := 2) (op := .store 0 6) h.1 (by simp) (by simp)

/-! ## C86 -/

/-- How often the function can have been called at a point. -/
def callMax : Pt K V → Nat
  | .start => 0
  | .tryLoad m _ | .call m _ _ => if m = .free then 0 else 1
  | .cas m _ _ _ | .reload m _ _ => if m = .free then 1 else 2
  | .lock | .locked | .unexp _ => 1
  | .build0 _ | .build _ _ | .buildE _ _ _ _ | .buildC _ _ _ _ | .amend _ | .addCall => 1
  | _ => 2

/-- Results that say that the function's value is now in the map. -/
def resMin : Op K V → Res K V → Nat
  | .computeIfAbsent _ _, .loaded (some _) false => 1
  | .computeIfPresent _ _, .present (some _) => 1
  | _, _ => 0

/-- Proof only: part of a measure; models no code. -/
def contMin (op : Op K V) : Cont K V → Nat
  | .ret r => resMin op r
  | _ => 0

/-- Proof only: part of a measure; models no code. -/
def isCompute : Op K V → Nat
  | .computeIfAbsent _ _ | .computeIfPresent _ _ => 1
  | _ => 0

/-- How often the function must have been called at a point. -/
def callMin (op : Op K V) : Pt K V → Nat
  | .cas _ _ _ _ | .reload _ _ _ | .add _ => isCompute op
  | .unlock k | .miss k | .promote k => contMin op k
  | _ => 0

/-- Proof only: part of a measure; models no code. -/
def callMaxX : Pt K V ⊕ Res K V → Nat
  | .inl s => callMax s
  | .inr _ => 2

/-- Proof only: part of a measure; models no code. -/
def callMinX (op : Op K V) : Pt K V ⊕ Res K V → Nat
  | .inl s => callMin op s
  | .inr r => resMin op r

theorem okRes_min (op : Op K V) (x : V × Option V) : resMin op (okRes x op) ≤ isCompute op := by
  obtain ⟨a, _ | b⟩ := x <;> cases op <;> simp [okRes, resMin, isCompute]

theorem failRes_min (op : Op K V) : resMin op (failRes op) = 0 := by cases op <;> simp [failRes, resMin]

theorem decide_calls {op : Op K V} {m : Mode} {e : Nat} {p : Ptr V} {D : Dec K V} {n : Nat} (h1 : n ≤ if m = .free then 1 else 2)
    (h2 : D = .call → n ≤ if m = .free then 0 else 1) (h3 : ∀ r, D = .done r → resMin op r = 0) (h4 : ∀ x, D = .cas x → isCompute op ≤ n) :
    n ≤ callMaxX (decide' op m e p D) ∧ callMinX op (decide' op m e p D) ≤ n := by
  have hf := failRes_min op
  cases D with
  | fail => cases m <;> simp_all [decide', after, callMaxX, callMinX, callMax, callMin, contMin]
  | done r => have := h3 r rfl; cases m <;> simp_all [decide', after, callMaxX, callMinX, callMax, callMin, contMin] <;> omega
  | cas x => have := h4 x rfl; exact ⟨h1, this⟩
  | call => exact ⟨h2 rfl, Nat.zero_le _⟩

theorem after_calls {op : Op K V} {m : Mode} {r : Res K V} {n : Nat} (h1 : n ≤ if m = .free then 1 else 2) (h2 : resMin op r ≤ n) :
    n ≤ callMaxX (after m r) ∧ callMinX op (after m r) ≤ n := by
  cases m <;> simp_all [after, callMaxX, callMinX, callMax, callMin, contMin] <;> omega

theorem first_done {op : Op K V} {p : Ptr V} {r : Res K V} (h : first op p = .done r) : resMin op r = 0 := by
  cases op <;> cases p <;> simp [first] at h <;> subst h <;> simp [resMin]

theorem again_done {op : Op K V} {x : V × Option V} {p : Ptr V} {r : Res K V} (h : again x op p = .done r) : resMin op r = 0 := by
  cases op <;> cases p <;> simp [again] at h <;> subst h <;> simp [resMin]

theorem again_call {op : Op K V} {x : V × Option V} {p : Ptr V} : again x op p ≠ .call := by
  cases op <;> cases p <;> simp [again]

theorem first_cas {op : Op K V} {p : Ptr V} {x : V × Option V} (h : first op p = .cas x) : isCompute op = 0 := by
  cases op <;> cases p <;> simp [first] at h <;> simp [isCompute]

theorem start_calls (g : G K V) (op : Op K V) : callMinX op (startStep g op) = 0 := by
  unfold startStep
  split <;> (repeat' split) <;> simp [callMinX, callMin, resMin, delRes]

theorem locked_calls (g : G K V) (op : Op K V) : callMin op (lockedStep g op).2 = 0 ∧ 1 ≤ callMax (lockedStep g op).2 ∧
    (lockedStep g op).1.calls = g.calls := by
  unfold lockedStep
  split <;> (repeat' split) <;> simp [callMax, callMin, contMin, resMin, isCompute, delRes]

theorem calls_step {g g' : G K V} {i : Nat} {op : Op K V} {s : Pt K V} {c : Nat} {x : Pt K V ⊕ Res K V} (h : step g i op s c = some (g', x))
    (hb : g.calls i ≤ callMax s) (hl : callMin op s ≤ g.calls i) :
    (g'.calls i ≤ callMaxX x ∧ callMinX op x ≤ g'.calls i) ∧ ∀ j, j ≠ i → g'.calls j = g.calls j := by
  have hd : ∀ (g g' : G K V) k e, g.setDirty k e = some g' → g'.calls = g.calls := by
    intro g g' k e h
    simp only [G.setDirty] at h
    split at h <;> simp only [Option.some.injEq, reduceCtorEq] at h
    subst h; rfl
  cases s with
  | start =>
    simp only [step, Option.some.injEq, Prod.mk.injEq] at h
    obtain ⟨rfl, rfl⟩ := h
    simp only [callMax] at hb
    refine ⟨⟨by omega, by rw [start_calls]; omega⟩, fun _ _ => rfl⟩
  | tryLoad m e =>
    simp only [step, Option.some.injEq, Prod.mk.injEq] at h
    obtain ⟨rfl, rfl⟩ := h
    simp only [callMax] at hb
    refine ⟨decide_calls (by split at hb <;> simp_all <;> omega) (fun _ => hb) (fun r hr => first_done hr) (fun x hx => by rw [first_cas hx]; omega), fun _ _ => rfl⟩
  | call m e p =>
    simp only [step] at h
    split at h <;> simp only [Option.some.injEq, Prod.mk.injEq, reduceCtorEq] at h
    obtain ⟨rfl, rfl⟩ := h
    simp only [callMax] at hb
    refine ⟨⟨?_, ?_⟩, fun j hj => by simp [upd_ne _ _ hj]⟩
    · simp only [callMaxX, callMax, upd_same]; split <;> simp_all <;> omega
    · simp only [callMinX, callMin, upd_same]; cases op <;> simp [isCompute]
  | cas m e p x =>
    simp only [callMax, callMin] at hb hl
    simp only [step] at h
    split at h <;> simp only [Option.some.injEq, Prod.mk.injEq] at h <;> obtain ⟨rfl, rfl⟩ := h
    · exact ⟨after_calls hb (Nat.le_trans (okRes_min op x) hl), fun _ _ => rfl⟩
    · exact ⟨⟨hb, hl⟩, fun _ _ => rfl⟩
  | reload m e x =>
    simp only [callMax, callMin] at hb hl
    simp only [step, Option.some.injEq, Prod.mk.injEq] at h
    obtain ⟨rfl, rfl⟩ := h
    exact ⟨decide_calls hb (fun hc => absurd hc again_call) (fun r hr => again_done hr) (fun x hx => hl), fun _ _ => rfl⟩
  | lock =>
    simp only [step] at h
    split at h <;> simp only [Option.some.injEq, Prod.mk.injEq, reduceCtorEq] at h
    obtain ⟨rfl, rfl⟩ := h
    exact ⟨⟨hb, hl⟩, fun _ _ => rfl⟩
  | locked =>
    simp only [step, Option.some.injEq, Prod.mk.injEq] at h
    obtain ⟨rfl, rfl⟩ := h
    obtain ⟨h1, h2, h3⟩ := locked_calls g op
    simp only [callMax] at hb
    rw [h3]
    exact ⟨⟨Nat.le_trans hb h2, by simp only [callMinX]; omega⟩, fun _ _ => rfl⟩
  | unexp e =>
    have ha : callMinX op (.inl (afterUnexp op e)) = 0 ∧ 1 ≤ callMaxX (.inl (afterUnexp op e)) := by
      cases op <;> simp [afterUnexp, callMinX, callMaxX, callMin, callMax]
    simp only [callMax] at hb
    simp only [step] at h
    split at h
    · split at h
      · simp at h
      · split at h <;> simp only [Option.some.injEq, Prod.mk.injEq] at h <;> obtain ⟨rfl, rfl⟩ := h
        · exact ⟨⟨by simp [G.setP, callMaxX]; omega, by simp [callMinX, resMin]⟩, fun _ _ => rfl⟩
        · rename_i g1 h1
          rw [hd _ _ _ _ h1]
          exact ⟨⟨Nat.le_trans hb ha.2, by omega⟩, fun _ _ => rfl⟩
    · simp only [Option.some.injEq, Prod.mk.injEq] at h
      obtain ⟨rfl, rfl⟩ := h
      exact ⟨⟨Nat.le_trans hb ha.2, by omega⟩, fun _ _ => rfl⟩
  | storeLocked e =>
    simp only [step] at h
    split at h <;> simp only [Option.some.injEq, Prod.mk.injEq, reduceCtorEq] at h
    obtain ⟨rfl, rfl⟩ := h
    exact ⟨⟨hb, by simp [callMinX, callMin, contMin, resMin]⟩, fun _ _ => rfl⟩
  | miss k =>
    simp only [step, Option.some.injEq, Prod.mk.injEq] at h
    obtain ⟨rfl, rfl⟩ := h
    split <;> exact ⟨⟨hb, hl⟩, fun _ _ => rfl⟩
  | promote k =>
    simp only [step, Option.some.injEq, Prod.mk.injEq] at h
    obtain ⟨rfl, rfl⟩ := h
    exact ⟨⟨hb, hl⟩, fun _ _ => rfl⟩
  | rpromote =>
    simp only [step, Option.some.injEq, Prod.mk.injEq] at h
    obtain ⟨rfl, rfl⟩ := h
    exact ⟨⟨hb, hl⟩, fun _ _ => rfl⟩
  | build0 rm =>
    simp only [step] at h
    split at h <;> simp only [Option.some.injEq, Prod.mk.injEq] at h <;> obtain ⟨rfl, rfl⟩ := h <;> exact ⟨⟨hb, hl⟩, fun _ _ => rfl⟩
  | build rm todo =>
    simp only [step] at h
    split at h
    · simp only [Option.some.injEq, Prod.mk.injEq] at h
      obtain ⟨rfl, rfl⟩ := h
      exact ⟨⟨hb, hl⟩, fun _ _ => rfl⟩
    · split at h <;> simp only [Option.some.injEq, Prod.mk.injEq, reduceCtorEq] at h
      obtain ⟨rfl, rfl⟩ := h
      exact ⟨⟨hb, hl⟩, fun _ _ => rfl⟩
  | buildE rm rest k e =>
    simp only [callMax] at hb
    simp only [step] at h
    split at h
    · simp only [Option.some.injEq, Prod.mk.injEq] at h
      obtain ⟨rfl, rfl⟩ := h
      exact ⟨⟨hb, hl⟩, fun _ _ => rfl⟩
    · simp only [Option.some.injEq, Prod.mk.injEq] at h
      obtain ⟨rfl, rfl⟩ := h
      exact ⟨⟨hb, hl⟩, fun _ _ => rfl⟩
    · split at h <;> simp only [Option.some.injEq, Prod.mk.injEq] at h <;> obtain ⟨rfl, rfl⟩ := h
      · exact ⟨⟨by simp [callMaxX]; omega, by simp [callMinX, resMin]⟩, fun _ _ => rfl⟩
      · rename_i g1 h1
        rw [hd _ _ _ _ h1]
        exact ⟨⟨hb, hl⟩, fun _ _ => rfl⟩
  | buildC rm rest k e =>
    simp only [step] at h
    split at h <;> simp only [Option.some.injEq, Prod.mk.injEq] at h <;> obtain ⟨rfl, rfl⟩ := h <;> exact ⟨⟨hb, hl⟩, fun _ _ => rfl⟩
  | amend rm =>
    simp only [callMax] at hb
    simp only [step] at h
    split at h <;> simp only [Option.some.injEq, Prod.mk.injEq, reduceCtorEq] at h
    rename_i s1 hs
    obtain ⟨rfl, rfl⟩ := h
    cases op <;> simp only [afterAmend, Option.some.injEq, reduceCtorEq] at hs <;> subst hs <;>
      exact ⟨⟨by simp only [callMaxX, callMax]; omega, by simp [callMinX, callMin, isCompute]⟩, fun _ _ => rfl⟩
  | addCall =>
    simp only [callMax] at hb
    simp only [step] at h
    split at h <;> simp only [Option.some.injEq, Prod.mk.injEq, reduceCtorEq] at h
    obtain ⟨rfl, rfl⟩ := h
    refine ⟨⟨?_, ?_⟩, fun j hj => by simp [upd_ne _ _ hj]⟩
    · simp only [callMaxX, callMax, upd_same]; omega
    · simp only [callMinX, callMin, upd_same, isCompute]; omega
  | add v =>
    simp only [callMax, callMin] at hb hl
    simp only [step] at h
    split at h
    · simp at h
    · split at h <;> simp only [Option.some.injEq, Prod.mk.injEq] at h <;> obtain ⟨rfl, rfl⟩ := h
      · exact ⟨⟨by simpa [callMaxX] using hb, by simp [callMinX, resMin]⟩, fun _ _ => rfl⟩
      · rename_i g1 h1
        have h2 := hd _ _ _ _ h1
        simp only [h2]
        refine ⟨⟨hb, ?_⟩, fun _ _ => trivial⟩
        cases op <;> simp_all [callMinX, callMin, contMin, resMin, addRes, isCompute]
  | unlock k =>
    simp only [callMax, callMin] at hb hl
    simp only [step, Option.some.injEq, Prod.mk.injEq] at h
    obtain ⟨rfl, rfl⟩ := h
    cases k <;> exact ⟨⟨hb, hl⟩, fun _ _ => rfl⟩
  | eload e =>
    simp only [step, Option.some.injEq, Prod.mk.injEq] at h
    obtain ⟨rfl, rfl⟩ := h
    exact ⟨⟨hb, by simp [callMinX, resMin]⟩, fun _ _ => rfl⟩
  | del e =>
    simp only [step] at h
    split at h <;> simp only [Option.some.injEq, Prod.mk.injEq] at h <;> obtain ⟨rfl, rfl⟩ := h
    · exact ⟨⟨hb, hl⟩, fun _ _ => rfl⟩
    · exact ⟨⟨hb, by cases op <;> simp [callMinX, resMin, delRes]⟩, fun _ _ => rfl⟩
  | delCas e p =>
    simp only [step] at h
    split at h <;> simp only [Option.some.injEq, Prod.mk.injEq] at h <;> obtain ⟨rfl, rfl⟩ := h
    · exact ⟨⟨hb, by cases op <;> simp [callMinX, resMin, delRes]⟩, fun _ _ => rfl⟩
    · exact ⟨⟨hb, hl⟩, fun _ _ => rfl⟩
  | iter todo vis =>
    simp only [step] at h
    split at h
    · simp only [Option.some.injEq, Prod.mk.injEq] at h
      obtain ⟨rfl, rfl⟩ := h
      exact ⟨⟨hb, by simp [callMinX, resMin]⟩, fun _ _ => rfl⟩
    · split at h
      · simp at h
      · split at h <;> simp only [Option.some.injEq, Prod.mk.injEq] at h <;> obtain ⟨rfl, rfl⟩ := h <;> exact ⟨⟨hb, hl⟩, fun _ _ => rfl⟩
  | icall todo vis k w =>
    simp only [step] at h
    split at h <;> simp only [Option.some.injEq, Prod.mk.injEq, reduceCtorEq] at h
    obtain ⟨rfl, rfl⟩ := h
    split <;> exact ⟨⟨hb, by simp [callMinX, callMin, resMin]⟩, fun _ _ => rfl⟩

theorem calls_inv {m : Conf (G K V) (Op K V) (Res K V) (Pt K V)} {H : List (Ev (Op K V) (Res K V))} (h : prog.mach.Exec m H) :
    ∀ i, (m.view i = none → m.g.calls i = 0) ∧
      ∀ op x, m.view i = some (op, x) → m.g.calls i ≤ callMaxX x ∧ callMinX op x ≤ m.g.calls i := by
  refine prog.induct (fun g v _ => ∀ i, (v i = none → g.calls i = 0) ∧
      ∀ op x, v i = some (op, x) → g.calls i ≤ callMaxX x ∧ callMinX op x ≤ g.calls i) ?_ ?_ ?_ ?_ h
  · intro i; exact ⟨fun _ => rfl, by simp⟩
  · intro g v H i op hI hv j
    by_cases hj : j = i
    · subst hj
      have := (hI j).1 hv
      refine ⟨by simp, ?_⟩
      intro op' x hx
      simp only [upd_same, Option.some.injEq, Prod.mk.injEq] at hx
      obtain ⟨rfl, rfl⟩ := hx
      simp [callMaxX, callMinX, prog, callMax, callMin, this]
    · rw [upd_ne _ _ hj]; exact hI j
  · intro g v H i op s c g' x hI hv hs j
    have h1 := (hI i).2 _ _ hv
    obtain ⟨h2, h3⟩ := calls_step (show step g i op s c = some (g', x) from hs) h1.1 h1.2
    by_cases hj : j = i
    · subst hj
      refine ⟨by simp, ?_⟩
      intro op' x' hx
      simp only [upd_same, Option.some.injEq, Prod.mk.injEq] at hx
      obtain ⟨rfl, rfl⟩ := hx
      exact h2
    · rw [upd_ne _ _ hj, h3 j hj]; exact hI j
  · intro g v H i op r hI _; exact hI

/-- **C86 (partial).** One call of `ComputeIfAbsent` or `ComputeIfPresent` calls its function at most twice; if it returns that the value
of the function is now in the map, it has called it. (Missing: at most once, which is false, see `C86_called_twice_refuted`.) -/
theorem C86_calls_partial {m : Conf (G K V) (Op K V) (Res K V) (Pt K V)} {H : List (Ev (Op K V) (Res K V))} (h : prog.mach.Exec m H) (i : Nat) :
    m.g.calls i ≤ 2 ∧
    (∀ k f x, Ev.inv i (.computeIfAbsent k f) ∈ H → Ev.ret i (.loaded x false) ∈ H → 1 ≤ m.g.calls i) ∧
    (∀ k f x, Ev.inv i (.computeIfPresent k f) ∈ H → Ev.ret i (.present (some x)) ∈ H → 1 ≤ m.g.calls i) := by
  obtain ⟨h1, h2⟩ := calls_inv h i
  refine ⟨?_, ?_, ?_⟩
  · cases hv : m.view i with
    | none => rw [h1 hv]; omega
    | some y =>
      obtain ⟨op, x⟩ := y
      refine Nat.le_trans (h2 op x hv).1 ?_
      cases x with
      | inr r => simp [callMaxX]
      | inl s => cases s <;> simp only [callMaxX, callMax] <;> (try split) <;> omega
  · intro k f x hi hr
    have hv := prog.ret_view h hi hr
    have h3 := (h2 _ _ hv).2
    cases x with
    | some x => simpa [callMinX, resMin] using h3
    | none =>
      exfalso
      obtain ⟨L, st, hL, _⟩ := observed h
      obtain ⟨n, hn⟩ := List.getElem?_of_mem (Linearization_op hL h hi hr)
      have hd : Does (st n) (.computeIfAbsent k f) (.loaded none false) (st (n + 1)) := hL.legal n _ _ _ hn
      generalize st n = s at hd
      generalize st (n + 1) = s' at hd
      cases hd
  · intro k f x hi hr
    have hv := prog.ret_view h hi hr
    simpa [callMinX, resMin] using (h2 _ _ hv).2

/-- The demonstration run of C21, where call 4 meets an expunged entry, with `ComputeIfAbsent` instead of `LoadOrStore`, is the witness of
`C86_called_twice_refuted` below; `demoPresent` has a successful `ComputeIfPresent`. -/
example := demoPresent.imp fun _ h => (C86_calls_partial h 3).2.2 0 (fun _ v _ => v + 1) (5, 6) (by simp) (by simp)

/-- **C86 is false as stated.** A single `ComputeIfAbsent` that inserts its value can call its function twice. -/
theorem C86_called_twice_refuted : ∃ m, (prog (K := Nat) (V := Nat)).mach.Exec m
    [.inv 1 (.store 0 5), .ret 1 .unit, .inv 2 (.load 0), .ret 2 (.value (some 5)), .inv 3 (.delete 0), .ret 3 .unit,
     .inv 4 (.computeIfAbsent 0 fun _ c => c), .inv 5 (.store 1 9), .ret 5 .unit, .ret 4 (.loaded (some 0) false)] ∧ m.g.calls 4 = 2 :=
  Mach.exists_exec_state _ ([.inv 1 (.store 0 5)] ++ runs 9 1 ++ [.inv 2 (.load 0)] ++ runs 8 2 ++ [.inv 3 (.delete 0)] ++ runs 4 3 ++
    [.inv 4 (.computeIfAbsent 0 fun _ c => c)] ++ runs 3 4 ++ [.inv 5 (.store 1 9)] ++ runs 12 5 ++ runs 10 4) _ _ (by exact And.intro rfl rfl)

/-- The same for `ComputeIfPresent`: if the key is deleted and stored again while the function runs for the first time, it is called a second time. -/
theorem C86_present_twice_refuted : ∃ m, (prog (K := Nat) (V := Nat)).mach.Exec m
    [.inv 1 (.store 0 5), .ret 1 .unit, .inv 2 (.load 0), .ret 2 (.value (some 5)), .inv 3 (.computeIfPresent 0 fun _ v _ => v + 1),
     .inv 4 (.delete 0), .ret 4 .unit, .inv 5 (.store 0 7), .ret 5 .unit, .ret 3 (.present (some (7, 8)))] ∧ m.g.calls 3 = 2 :=
  Mach.exists_exec_state _ ([.inv 1 (.store 0 5)] ++ runs 9 1 ++ [.inv 2 (.load 0)] ++ runs 8 2 ++ [.inv 3 (.computeIfPresent 0 fun _ v _ => v + 1)] ++
    runs 3 3 ++ [.inv 4 (.delete 0)] ++ runs 4 4 ++ runs 2 3 ++ [.inv 5 (.store 0 7)] ++ runs 4 5 ++ runs 8 3) _ _ (by exact And.intro rfl rfl)

end Verif.XSync.MapConc

import Verif.XSync.MapConcSteps2
import Verif.Conc.Phase
/-!
# Properties of the concurrent map

C21 (linearizability), C22 (`ComputeIfPresent`), C23 (`Range`), C85 (no panic, no deadlock), C86 (calls of the user function). The
specifications are in `MapConcSpec.lean`; `Linearization` and `During` are defined in `Conc/Obs.lean`.
-/
namespace Verif.XSync.MapConc
open Verif.Conc Verif.Go

variable {K V : Type} [DecidableEq K] [DecidableEq V]

/-! ## The simulation -/

/-- A map without contents; entries and keys of earlier contents may be left on the heap. -/
structure Blank (g : G K V) : Prop where
  mu : g.mu = none
  read : g.read = []
  amended : g.amended = false
  dirty : g.dirty = none
  fresh : ∀ e, g.next ≤ e → g.key e = none

omit [DecidableEq K] [DecidableEq V] in
theorem blank_zero : Blank (.zero : G K V) := ⟨rfl, rfl, rfl, rfl, fun _ _ => rfl⟩

omit [DecidableEq V] in
theorem blank_abs {g : G K V} (h : Blank g) : g.a.abs = fun _ => none := by
  funext k
  simp [A.abs, G.a, G.dirtyGet, h.read, h.dirty]

omit [DecidableEq V] in
theorem inv_init {g : G K V} (h : Blank g) : I g (fun _ => none) (Ghost.init mapSpec) := by
  refine ⟨?_, ?_, h.fresh, by rw [h.read]; exact GMap.wf_nil, by rw [h.dirty]; exact GMap.wf_nil, ?_, ?_, ?_, ?_, ?_, ?_⟩ <;> try simp [h.mu]
  · rw [blank_abs h]; rfl
  · constructor <;> simp [G.a, modeAt, G.dirtyGet, h.read, h.dirty, h.amended]

omit [DecidableEq V] in
theorem inv_invoke {g : G K V} {v : Vw K V} {gh : Gh K V} {i : Nat} {op : Op K V} (hg : GReach mapSpec gh) (hI : I g v gh) (hv : v i = none)
    (hst : gh.st i = .idle) : I g (upd v i (some (op, .inl .start))) (gh.invoke i op) := by
  have hs : ∀ j, j ≠ i → (gh.invoke i op).st j = gh.st j := fun j hj => by simp [Ghost.invoke, upd_ne _ _ hj]
  have hmi : g.mu ≠ some i := by
    intro h
    obtain ⟨o, s, h1, _⟩ := hI.muIn i h
    rw [hv] at h1; simp at h1
  have hnc : ¬ Committed (gh.invoke i op) i := not_committed (op := op) (by simp [Ghost.invoke])
  have hcj : ∀ j, j ≠ i → Committed (gh.invoke i op) j → Committed gh j := by
    rintro j hj ⟨o, r, h⟩
    exact ⟨o, r, by rw [← hs j hj]; exact h⟩
  have hnow : ∀ j, gh.st j ≠ .done → ∀ k, saw gh j k (g.a.abs k) := fun j hj k => now hg hI hj k
  refine ⟨hI.cur, ?_, hI.fresh, hI.wfR, hI.wfD, ?_, ?_, ?_, ?_, ?_, ?_⟩
  · have : modeAt g.mu (upd v i (some (op, .inl .start))) = modeAt g.mu v := by
      unfold modeAt
      cases hm : g.mu with
      | none => rfl
      | some j =>
        have hj : j ≠ i := by rintro rfl; exact hmi hm
        simp only [upd_ne _ _ hj]
    rw [this]; exact hI.gi
  · intro j o s hj
    by_cases hji : j = i
    · subst hji
      simp only [upd_same, Option.some.injEq, Prod.mk.injEq, Sum.inl.injEq] at hj
      obtain ⟨rfl, rfl⟩ := hj
      simp [Pt.holds, hmi]
    · rw [upd_ne _ _ hji] at hj; exact hI.mu j o s hj
  · intro j hj
    have hji : j ≠ i := by rintro rfl; exact hmi hj
    rw [upd_ne _ _ hji]; exact hI.muIn j hj
  · intro j o s hj
    by_cases hji : j = i
    · subst hji
      simp only [upd_same, Option.some.injEq, Prod.mk.injEq, Sum.inl.injEq] at hj
      obtain ⟨rfl, rfl⟩ := hj
      simp [FLoc, Ghost.invoke]
    · rw [upd_ne _ _ hji] at hj
      have he := ext_invoke (gh := gh) i op j hji
      exact floc_step (.same g.a (modeAt g.mu v)) hI.gi (hs j hji) he (hnow j) (fun h k => he.saw (hnow j h k)) (by simp) (hI.floc j o s hj)
  · intro j o s hj hh
    by_cases hji : j = i
    · subst hji
      simp only [upd_same, Option.some.injEq, Prod.mk.injEq, Sum.inl.injEq] at hj
      obtain ⟨rfl, rfl⟩ := hj
      simp [Pt.holds] at hh
    · rw [upd_ne _ _ hji] at hj; exact hI.lloc j o s hj hh
  · intro j o r hj
    by_cases hji : j = i
    · subst hji; simp at hj
    · rw [upd_ne _ _ hji] at hj; exact fin_ext (hs j hji) (ext_invoke i op j hji) (hI.fin j o r hj)
  · intro j j' o o' s s' e h1 h2 h3 h4 h5 h6
    have a1 : j ≠ i := by rintro rfl; exact hnc h5
    have a2 : j' ≠ i := by rintro rfl; exact hnc h6
    rw [upd_ne _ _ a1] at h1
    rw [upd_ne _ _ a2] at h2
    exact hI.own j j' o o' s s' e h1 h2 h3 h4 (hcj j a1 h5) (hcj j' a2 h6)

theorem inv_step {g g' : G K V} {v : Vw K V} {gh : Gh K V} {i : Nat} {op : Op K V} {s : Pt K V} {c : Nat} {x : Pt K V ⊕ Res K V}
    (hg : GReach mapSpec gh) (hI : I g v gh) (hv : v i = some (op, .inl s)) (h : step g i op s c = some (g', x)) : Out g v gh i op g' x := by
  cases s with
  | start => exact step_start hg hI hv h
  | tryLoad m e => exact step_tryLoad hg hI hv h
  | call m e p => exact step_call hg hI hv h
  | cas m e p x => exact step_cas hg hI hv h
  | reload m e x => exact step_reload hg hI hv h
  | lock => exact step_lock hg hI hv h
  | locked => exact step_locked hg hI hv h
  | unexp e => exact step_unexp hg hI hv h
  | storeLocked e => exact step_storeLocked hg hI hv h
  | miss k => exact step_miss hg hI hv h
  | promote k => exact step_promote hg hI hv h
  | rpromote => exact step_rpromote hg hI hv h
  | build0 rm => exact step_build0 hg hI hv h
  | build rm todo => exact step_build hg hI hv h
  | buildE rm rest k e => exact step_buildE hg hI hv h
  | buildC rm rest k e => exact step_buildC hg hI hv h
  | amend rm => exact step_amend hg hI hv h
  | addCall => exact step_addCall hg hI hv h
  | add x => exact step_add hg hI hv h
  | unlock k => exact step_unlock hg hI hv h
  | eload e => exact step_eload hg hI hv h
  | del e => exact step_del hg hI hv h
  | delCas e p => exact step_delCas hg hI hv h
  | iter todo vis => exact step_iter hg hI hv h
  | icall todo vis k v => exact step_icall hg hI hv h

omit [DecidableEq V] in
theorem inst_ret {gh gh' : Gh K V} {i : Nat} (hg : GReach mapSpec gh) (hnd : gh.st i ≠ .done) (h1 : gh'.start = gh.start)
    (h2 : gh'.fin = upd gh.fin i (some gh.log.length)) (h3 : gh'.log = gh.log) (h4 : gh'.at' = gh.at') (j : Nat) : Ext gh gh' j := by
  refine ⟨?_, fun n y h => by rw [h3]; exact h⟩
  rintro n ⟨a1, a2⟩
  refine ⟨⟨by rw [h1]; exact a1, ?_⟩, by rw [h4]⟩
  rw [h2, h3]
  by_cases hj : j = i
  · subst hj
    have := (((ginv_reach hg).finSt j).not.2 hnd)
    simp only [ne_eq, not_not] at this
    simp only [this, Option.getD_none] at a2
    simpa using a2
  · rw [upd_ne _ _ hj]; exact a2

omit [DecidableEq V] in
theorem inv_ret {g : G K V} {v : Vw K V} {gh gh' : Gh K V} {i : Nat} {op : Op K V} {r : Res K V} (hg : GReach mapSpec gh) (hI : I g v gh)
    (hv : v i = some (op, .inr r)) (hnd : gh.st i ≠ .done) (h0 : gh'.st = upd gh.st i .done) (h1 : gh'.start = gh.start)
    (h2 : gh'.fin = upd gh.fin i (some gh.log.length)) (h3 : gh'.log = gh.log) (h4 : gh'.at' = gh.at') : I g v gh' := by
  have he := inst_ret hg hnd h1 h2 h3 h4
  have hs : ∀ j, j ≠ i → gh'.st j = gh.st j := fun j hj => by rw [h0, upd_ne _ _ hj]
  have hni : ∀ j o s, v j = some (o, .inl s) → j ≠ i := by rintro j o s hj rfl; rw [hv] at hj; simp at hj
  have hnow : ∀ j, gh.st j ≠ .done → ∀ k, saw gh j k (g.a.abs k) := fun j hj k => now hg hI hj k
  have hcj : ∀ j, j ≠ i → Committed gh' j → Committed gh j := by
    rintro j hj ⟨o, r, h⟩
    exact ⟨o, r, by rw [← hs j hj]; exact h⟩
  refine ⟨?_, hI.gi, hI.fresh, hI.wfR, hI.wfD, hI.mu, hI.muIn, ?_, hI.lloc, ?_, ?_⟩
  · have := hI.cur
    unfold Ghost.cur at this ⊢
    rw [h3, h4]; exact this
  · intro j o s hj
    exact floc_step (.same g.a (modeAt g.mu v)) hI.gi (hs j (hni j o s hj)) (he j) (hnow j) (fun h k => (he j).saw (hnow j h k)) (by simp)
      (hI.floc j o s hj)
  · intro j o r' hj
    by_cases hji : j = i
    · subst hji
      refine ⟨Or.inr (Or.inr (by rw [h0]; simp)), ?_⟩
      exact resOk_mono (fun _ _ => (he j).saw) (fun _ _ => (he j).pre) (hI.fin j o r' hj).2
    · exact fin_ext (hs j hji) (he j) (hI.fin j o r' hj)
  · intro j j' o o' s s' e a1 a2 a3 a4 a5 a6
    exact hI.own j j' o o' s s' e a1 a2 a3 a4 (hcj j (hni j o s a1) a5) (hcj j' (hni j' o' s' a2) a6)

theorem simulation_from {g₀ : G K V} (h0 : Blank g₀) {m : Conf (G K V) (Op K V) (Res K V) (Pt K V)} {H : List (Ev (Op K V) (Res K V))}
    (h : (prog.from g₀).mach.Exec m H) : ∃ gh, GReach mapSpec gh ∧ gh.hist = H ∧ I m.g m.view gh := by
  refine (prog.from g₀).simulate mapSpec I (inv_init h0) ?_ ?_ ?_ h
  · intro g v gh i op hg hI hv hst
    exact inv_invoke hg hI hv hst
  · intro g v gh i op s c g' x hg hI hv hs
    exact inv_step hg hI hv hs
  · intro g v gh i op r hg hI hv hnd
    rcases (hI.fin i op r hv).1 with h | ⟨h, n, h1, h2⟩ | h
    · exact Or.inl ⟨h, inv_ret hg hI hv hnd rfl rfl rfl rfl rfl⟩
    · exact Or.inr ⟨n, h, h1.1, inst_le hg h1, h2, inv_ret hg hI hv hnd rfl rfl rfl rfl rfl⟩
    · exact absurd h hnd

theorem simulation {m : Conf (G K V) (Op K V) (Res K V) (Pt K V)} {H : List (Ev (Op K V) (Res K V))} (h : prog.mach.Exec m H) :
    ∃ gh, GReach mapSpec gh ∧ gh.hist = H ∧ I m.g m.view gh := simulation_from blank_zero h

/-- Every history has a linearization in which the results are consistent with what was there during the calls. -/
theorem observed_from {g₀ : G K V} (h0 : Blank g₀) {m : Conf (G K V) (Op K V) (Res K V) (Pt K V)} {H : List (Ev (Op K V) (Res K V))}
    (h : (prog.from g₀).mach.Exec m H) :
    ∃ L st, Linearization mapSpec H L st ∧ ∀ i op r, Ev.inv i op ∈ H → Ev.ret i r ∈ H →
      ResOk (fun k x => ∃ n, During H L i n ∧ st n k = x)
        (fun k w => ∃ n n' o r', During H L i n ∧ st n k = some w ∧ n ≤ n' ∧ L[n']? = some (i, o, r')) op r := by
  obtain ⟨gh, hg, rfl, hI⟩ := simulation_from h0 h
  obtain ⟨L, st, hL, ho⟩ := hg.linearization
  refine ⟨L, st, hL, ?_⟩
  intro i op r hi hr
  have := (hI.fin i op r ((prog.from g₀).ret_view h hi hr)).2
  refine resOk_mono ?_ ?_ this
  · rintro k x ⟨j, h1, h2⟩
    obtain ⟨n, a1, a2, _⟩ := ho i j h1
    exact ⟨n, a1, by rw [a2, h2]⟩
  · rintro k w ⟨c, j, o, r', h1, h2, h3, h4⟩
    obtain ⟨n, a1, a2, a3⟩ := ho i j h2
    obtain ⟨n', a4, a5⟩ := a3 c _ h1 h3
    exact ⟨n, n', o, r', a1, by rw [a2, h4], a5, a4⟩

theorem observed {m : Conf (G K V) (Op K V) (Res K V) (Pt K V)} {H : List (Ev (Op K V) (Res K V))} (h : prog.mach.Exec m H) :
    ∃ L st, Linearization mapSpec H L st ∧ ∀ i op r, Ev.inv i op ∈ H → Ev.ret i r ∈ H →
      ResOk (fun k x => ∃ n, During H L i n ∧ st n k = x)
        (fun k w => ∃ n n' o r', During H L i n ∧ st n k = some w ∧ n ≤ n' ∧ L[n']? = some (i, o, r')) op r := observed_from blank_zero h

/-! ## C21 -/

/-- In a linearization a returned call has the operation it was made with. -/
theorem Linearization_op {S : Spec (M K V) (Op K V) (Res K V)} {H : List (Ev (Op K V) (Res K V))} {L : List (Nat × Op K V × Res K V)}
    {st : Nat → M K V} (hL : Linearization S H L st) {m : Conf (G K V) (Op K V) (Res K V) (Pt K V)} (h : prog.mach.Exec m H) {i : Nat}
    {op : Op K V} {r : Res K V} (hi : Ev.inv i op ∈ H) (hr : Ev.ret i r ∈ H) : (i, op, r) ∈ L := by
  obtain ⟨op', ho⟩ := hL.returned i r hr
  have h1 := prog.ret_view h hi hr
  have h2 := prog.ret_view h (hL.invoked _ ho) hr
  rw [h1] at h2
  simp only [Option.some.injEq, Prod.mk.injEq] at h2
  rw [h2.1]; exact ho

/-! ## Concrete executions -/

/-- `n` steps of the call `i`. -/
def runs (n i : Nat) : List (Act (Op Nat Nat)) := List.replicate n (.run i 0)

/-- A concurrent execution with a promotion, an expunged entry and a `LoadOrStore` that meets it. -/
theorem demo : ∃ m, (prog (K := Nat) (V := Nat)).mach.Exec m
    [.inv 1 (.store 0 5), .ret 1 .unit, .inv 2 (.load 0), .ret 2 (.value (some 5)), .inv 3 (.delete 0), .ret 3 .unit,
     .inv 4 (.loadOrStore 0 6), .inv 5 (.store 1 9), .ret 5 .unit, .ret 4 (.loaded (some 6) false), .inv 6 (.load 0), .ret 6 (.value (some 6))] :=
  Mach.exists_exec _ ([.inv 1 (.store 0 5)] ++ runs 9 1 ++ [.inv 2 (.load 0)] ++ runs 8 2 ++ [.inv 3 (.delete 0)] ++ runs 4 3 ++
    [.inv 4 (.loadOrStore 0 6)] ++ runs 2 4 ++ [.inv 5 (.store 1 9)] ++ runs 12 5 ++ runs 9 4 ++ [.inv 6 (.load 0)] ++ runs 3 6) _ rfl

/-- A `Range` concurrent with a `Store` and a `Delete`. -/
theorem demoRange : ∃ m, (prog (K := Nat) (V := Nat)).mach.Exec m
    [.inv 1 (.store 0 5), .ret 1 .unit, .inv 2 (.store 1 6), .ret 2 .unit, .inv 3 (.range fun _ _ _ => true), .inv 4 (.delete 1),
     .inv 5 (.store 2 7), .ret 4 .unit, .ret 5 .unit, .ret 3 (.visited [(0, 5)] true)] :=
  Mach.exists_exec _ ([.inv 1 (.store 0 5)] ++ runs 9 1 ++ [.inv 2 (.store 1 6)] ++ runs 6 2 ++ [.inv 3 (.range fun _ _ _ => true)] ++ runs 5 3 ++
    [.inv 4 (.delete 1), .inv 5 (.store 2 7)] ++ runs 4 4 ++ runs 14 5 ++ runs 5 3) _ rfl

/-- A `ComputeIfPresent` that reads 5, is overtaken by a `Store` of 7 and replaces this value by 6. -/
theorem demoPresent : ∃ m, (prog (K := Nat) (V := Nat)).mach.Exec m
    [.inv 1 (.store 0 5), .ret 1 .unit, .inv 2 (.load 0), .ret 2 (.value (some 5)), .inv 3 (.computeIfPresent 0 fun _ v _ => v + 1), .inv 4 (.store 0 7),
     .ret 4 .unit, .ret 3 (.present (some (5, 6))), .inv 5 (.load 0), .ret 5 (.value (some 6))] :=
  Mach.exists_exec _ ([.inv 1 (.store 0 5)] ++ runs 9 1 ++ [.inv 2 (.load 0)] ++ runs 8 2 ++ [.inv 3 (.computeIfPresent 0 fun _ v _ => v + 1)] ++ runs 3 3 ++
    [.inv 4 (.store 0 7)] ++ runs 4 4 ++ runs 4 3 ++ [.inv 5 (.load 0)] ++ runs 3 5) _ rfl

/-- A `Range` whose function returns false at the first call. -/
theorem demoStop : ∃ m, (prog (K := Nat) (V := Nat)).mach.Exec m
    [.inv 1 (.store 0 5), .ret 1 .unit, .inv 2 (.store 1 6), .ret 2 .unit, .inv 3 (.range fun _ _ _ => false), .ret 3 (.visited [(1, 6)] false)] :=
  Mach.exists_exec _ ([.inv 1 (.store 0 5)] ++ runs 9 1 ++ [.inv 2 (.store 1 6)] ++ runs 6 2 ++ [.inv 3 (.range fun _ _ _ => false)] ++ runs 8 3) _ rfl

/-- **C21.** Every concurrent history of `Load`, `Store`, `LoadOrStore`, `ComputeIfAbsent`, `LoadAndDelete`, `Delete` (and `Range`, about which
`strictSpec` only says that it changes nothing) is linearizable with respect to an ordinary map. -/
theorem C21_linearizable {m : Conf (G K V) (Op K V) (Res K V) (Pt K V)} {H : List (Ev (Op K V) (Res K V))} (h : prog.mach.Exec m H)
    (hno : ∀ i k f, Ev.inv i (.computeIfPresent k f) ∉ H) : Linearizable strictSpec H := by
  obtain ⟨L, st, hL, _⟩ := observed h
  refine Linearization.linearizable (st := st) (L := L) ⟨hL.once, hL.invoked, hL.returned, hL.init, ?_, hL.order⟩
  intro n i op r hn
  refine ⟨hL.legal n i op r hn, ?_⟩
  rintro k f w v rfl
  exact absurd (hL.invoked _ (List.mem_of_getElem? hn)) (hno i k f)

example : Linearizable strictSpec [.inv 1 (.store 0 5), .ret 1 .unit, .inv 2 (.load 0), .ret 2 (.value (some 5)), .inv 3 (.delete 0), .ret 3 .unit,
     .inv 4 (.loadOrStore 0 6), .inv 5 (.store 1 9), .ret 5 .unit, .ret 4 (.loaded (some 6) false), .inv 6 (.load 0), .ret 6 (.value (some 6))] :=
  demo.elim fun _ h => C21_linearizable h (by simp)

/-! ## C22 -/

/-- **C22, the part that holds.** With `ComputeIfPresent` histories are linearizable too, if a successful `ComputeIfPresent` may replace another
value than the one its function was applied to. The function is applied to a value that the key had at an instant of the call before the
replacement, and it is the replaced value if no other operation that can change the key is concurrent. Missing: that it is always the
replaced value, which is false (`C22_lost_update_refuted`). -/
theorem C22_computeIfPresent_partial {m : Conf (G K V) (Op K V) (Res K V) (Pt K V)} {H : List (Ev (Op K V) (Res K V))}
    (h : prog.mach.Exec m H) : ∃ L st, Linearization mapSpec H L st ∧
      ∀ i k f w v, Ev.inv i (.computeIfPresent k f) ∈ H → Ev.ret i (.present (some (w, v))) ∈ H →
        ∃ n n', L[n']? = some (i, .computeIfPresent k f, .present (some (w, v))) ∧ During H L i n ∧ n ≤ n' ∧ st n k = some w ∧
          ((∀ j op, Ev.inv j op ∈ H → j ≠ i → op.key? = some k → op ≠ .load k → Before H i j ∨ Before H j i) → st n' k = some w) := by
  obtain ⟨L, st, hL, ho⟩ := observed h
  refine ⟨L, st, hL, ?_⟩
  intro i k f w v hi hr
  obtain ⟨n, n', o, r', h1, h2, h3, h4⟩ := ho i _ _ hi hr
  have hmem := Linearization_op hL h hi hr
  have hsame : (o, r') = (.computeIfPresent k f, .present (some (w, v))) := by
    have hnd := hL.once
    obtain ⟨c, hc⟩ := List.getElem?_of_mem hmem
    obtain ⟨q1, q2⟩ := List.getElem?_eq_some_iff.mp h4
    obtain ⟨q3, q4⟩ := List.getElem?_eq_some_iff.mp hc
    have := (List.nodup_iff_injective_get.1 hnd) (a₁ := ⟨n', by simpa using q1⟩) (a₂ := ⟨c, by simpa using q3⟩) (by simp [q2, q4])
    simp only [Fin.mk.injEq] at this
    subst this
    rw [h4] at hc
    simp only [Option.some.injEq, Prod.mk.injEq] at hc
    rw [hc.2.1, hc.2.2]
  simp only [Prod.mk.injEq] at hsame
  obtain ⟨rfl, rfl⟩ := hsame
  refine ⟨n, n', h4, h1, h3, h2, ?_⟩
  intro halone
  -- the value of `k` does not change between the two instants
  have step : ∀ d, n + d ≤ n' → st (n + d) k = some w := by
    intro d
    induction d with
    | zero => intro _; exact h2
    | succ d ih =>
      intro hle
      have ih := ih (by omega)
      have hlt : n + d < L.length := by
        have := (List.getElem?_eq_some_iff.mp h4).1; omega
      obtain ⟨⟨j, op, r⟩, hy⟩ : ∃ y, L[n + d]? = some y := ⟨_, List.getElem?_eq_getElem hlt⟩
      have hleg := hL.legal _ _ _ _ hy
      have hnb1 : ¬ Before H j i := h1.2.2 _ _ hy (by omega)
      have hnb2 : ¬ Before H i j := by
        have hp := hL.order
        rw [List.pairwise_iff_getElem] at hp
        obtain ⟨q1, q2⟩ := List.getElem?_eq_some_iff.mp h4
        have := hp (n + d) n' hlt q1 (by omega)
        rw [q2, show L[n + d] = (j, op, r) from (List.getElem?_eq_some_iff.mp hy).2] at this
        exact this
      have hji : j ≠ i := by
        rintro rfl
        have hnd := hL.once
        obtain ⟨q1, q2⟩ := List.getElem?_eq_some_iff.mp h4
        obtain ⟨q3, q4⟩ := List.getElem?_eq_some_iff.mp hy
        have := (List.nodup_iff_injective_get.1 hnd) (a₁ := ⟨n', by simpa using q1⟩) (a₂ := ⟨n + d, by simpa using q3⟩) (by simp [q2, q4])
        simp only [Fin.mk.injEq] at this
        omega
      have hother : op.key? ≠ some k ∨ op = .load k := by
        by_contra hc
        simp only [not_or, not_not] at hc
        rcases halone j op (hL.invoked _ (List.mem_of_getElem? hy)) hji hc.1 hc.2 with hb | hb
        · exact hnb2 hb
        · exact hnb1 hb
      have hput : ∀ (s : M K V) k' x, k' ≠ k → (s.put k' x) k = s k := by
        intro s k' x hk; simp [M.put, Ne.symm hk]
      rw [show n + (d + 1) = n + d + 1 by omega]
      generalize st (n + d + 1) = s' at hleg ⊢
      generalize hs : st (n + d) = s at hleg ih
      have hleg : Does s op r s' := hleg
      cases hleg <;> simp only [Op.key?, ne_eq, Option.some.injEq, reduceCtorEq, or_false, not_false_eq_true, true_or] at hother
      all_goals first
        | exact ih
        | rw [hput _ _ _ hother]; exact ih
  have := step (n' - n) (by omega)
  rwa [show n + (n' - n) = n' by omega] at this

example := demoPresent.elim fun _ h => C22_computeIfPresent_partial h

/-! ## C23 -/

/-- **C23.** A `Range` visits no key twice, every visited pair was there at an instant of the call, and if no call of the function returned
false, every key that was present at all instants of the call is visited. -/
theorem C23_range {m : Conf (G K V) (Op K V) (Res K V) (Pt K V)} {H : List (Ev (Op K V) (Res K V))} (h : prog.mach.Exec m H) :
    ∃ L st, Linearization mapSpec H L st ∧ ∀ i f l all, Ev.inv i (.range f) ∈ H → Ev.ret i (.visited l all) ∈ H →
      (l.map (·.1)).Nodup ∧ (∀ k v, (k, v) ∈ l → ∃ n, During H L i n ∧ st n k = some v) ∧
      (all = true → ∀ k, (∀ n, During H L i n → st n k ≠ none) → ∃ v, (k, v) ∈ l) := by
  obtain ⟨L, st, hL, ho⟩ := observed h
  refine ⟨L, st, hL, ?_⟩
  intro i f l all hi hr
  obtain ⟨h1, h2, h3⟩ := ho i _ _ hi hr
  refine ⟨h1, fun k v hk => h2 (k, v) hk, ?_⟩
  intro hall k hk
  rcases h3 hall k with hm | ⟨n, a1, a2⟩
  · obtain ⟨⟨k', v⟩, a1, rfl⟩ := List.mem_map.1 hm
    exact ⟨v, a1⟩
  · exact absurd a2 (hk n a1)

example := demoRange.elim fun _ h => C23_range h

/-- The function of a `Range` returned true at all calls, or at all but the last one, and the last one returned false. -/
def Stopped (f : K → V → Nat → Bool) (r : Res K V) : Prop :=
  (∃ l, r = .visited l true ∧ ∀ k v, (k, v) ∈ l → ∃ c, f k v c = true) ∨
    ∃ l k v c, r = .visited (l ++ [(k, v)]) false ∧ f k v c = false ∧ ∀ k v, (k, v) ∈ l → ∃ c, f k v c = true

/-- The function returned true at all calls so far. -/
def RangePt (f : K → V → Nat → Bool) : Pt K V ⊕ Res K V → Prop
  | .inl (.iter _ vis) => ∀ k v, (k, v) ∈ vis → ∃ c, f k v c = true
  | .inl (.icall _ vis _ _) => ∀ k v, (k, v) ∈ vis → ∃ c, f k v c = true
  | .inl .start | .inl .lock | .inl .locked | .inl .rpromote | .inl (.unlock (.iter _)) => True
  | .inr r => Stopped f r
  | _ => False

theorem rangePt_step {f : K → V → Nat → Bool} {g g' : G K V} {i c : Nat} {s : Pt K V} {x : Pt K V ⊕ Res K V} (hq : RangePt f (.inl s))
    (hst : step g i (.range f) s c = some (g', x)) : RangePt f x := by
  cases s <;> simp only [RangePt] at hq
  · simp only [step, startStep, Option.some.injEq, Prod.mk.injEq] at hst
    rw [← hst.2]
    split
    · trivial
    · simp [RangePt]
  · simp only [step] at hst
    split at hst
    · simp at hst
    · simp only [Option.some.injEq, Prod.mk.injEq] at hst
      rw [← hst.2]; trivial
  · simp only [step, lockedStep, Option.some.injEq, Prod.mk.injEq] at hst
    rw [← hst.2]
    split
    · trivial
    · trivial
  · simp only [step, Option.some.injEq, Prod.mk.injEq] at hst
    rw [← hst.2]; trivial
  · rename_i k
    cases k <;> simp only at hq
    simp only [step, Cont.go, Option.some.injEq, Prod.mk.injEq] at hst
    rw [← hst.2]; simp [RangePt]
  · rename_i todo vis
    simp only [step] at hst
    split at hst
    · simp only [Option.some.injEq, Prod.mk.injEq] at hst
      rw [← hst.2]
      exact Or.inl ⟨_, rfl, hq⟩
    · split at hst
      · simp at hst
      · split at hst <;> simp only [Option.some.injEq, Prod.mk.injEq] at hst <;> rw [← hst.2] <;> exact hq
  · rename_i todo vis k w
    simp only [step, Option.some.injEq, Prod.mk.injEq] at hst
    rw [← hst.2]
    split
    · rename_i hf
      intro k' v' hm
      simp only [List.mem_append, List.mem_singleton, Prod.mk.injEq] at hm
      rcases hm with hm | ⟨rfl, rfl⟩
      · exact hq k' v' hm
      · exact ⟨c, hf⟩
    · rename_i hf
      exact Or.inr ⟨vis, k, w, c, rfl, by simpa using hf, hq⟩

theorem rangePt_exec {m : Conf (G K V) (Op K V) (Res K V) (Pt K V)} {H : List (Ev (Op K V) (Res K V))} (h : prog.mach.Exec m H) {f : K → V → Nat → Bool} :
    ∀ i x, m.view i = some (.range f, x) → RangePt f x := by
  refine prog.induct (fun _ v _ => ∀ i x, v i = some (.range f, x) → RangePt f x) (by simp) ?_ ?_ ?_ h
  · intro g v H j op ih hv i' x hx
    by_cases hij : i' = j
    · subst hij
      simp only [upd_same, Option.some.injEq, Prod.mk.injEq] at hx
      rw [← hx.2]; trivial
    · rw [upd_ne _ _ hij] at hx; exact ih i' x hx
  · intro g v H j op s c g' x ih hv hst i' x' hx
    by_cases hij : i' = j
    · subst hij
      simp only [upd_same, Option.some.injEq, Prod.mk.injEq] at hx
      obtain ⟨rfl, rfl⟩ := hx
      exact rangePt_step (ih i' _ hv) hst
    · rw [upd_ne _ _ hij] at hx; exact ih i' x' hx
  · intro g v H j op r ih _ i' x hx
    exact ih i' x hx

/-- **C23.** `Range` stops exactly when the function returns false: all calls but the last returned true, and the last one returned what the
flag says. -/
theorem C23_range_stops {m : Conf (G K V) (Op K V) (Res K V) (Pt K V)} {H : List (Ev (Op K V) (Res K V))} (h : prog.mach.Exec m H) {i : Nat}
    {f : K → V → Nat → Bool} {r : Res K V} (hi : Ev.inv i (.range f) ∈ H) (hr : Ev.ret i r ∈ H) :
    (∃ l, r = .visited l true ∧ ∀ k v, (k, v) ∈ l → ∃ c, f k v c = true) ∨
    ∃ l k v c, r = .visited (l ++ [(k, v)]) false ∧ f k v c = false ∧ ∀ k v, (k, v) ∈ l → ∃ c, f k v c = true :=
  rangePt_exec h i _ (prog.ret_view h hi hr)

example := demoStop.elim fun _ h => C23_range_stops (i := 3) (f := fun _ _ _ => false) (r := .visited [(1, 6)] false) h (by simp) (by simp)

end Verif.XSync.MapConc

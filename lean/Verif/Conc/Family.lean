import Verif.Conc.Obs
/-!
# Families of objects

`Prog.family P` is a family of objects, numbered by the natural numbers, each of which runs `P`; an operation `(x, op)` is the operation
`op` of the object `x`. If `P` is simulated by the ghost automaton for `S`, the family is simulated by the ghost automaton for `famSpec S`,
with the same instants of all calls.
-/
namespace Verif.Conc

variable {σ G Op Res S' : Type}

/-- General machinery, no code of /repo: many objects of one kind, used at the same time (the shards of shared_map.go:25-27). -/
def Prog.family (P : Prog G Op Res S') : Prog (Nat → G) (Nat × Op) Res S' where
  init := fun _ => P.init
  begin op := P.begin op.2
  step g i op s c := (P.step (g op.1) i op.2 s c).map fun y => (upd g op.1 y.1, y.2)

/-- The objects are independent: an operation acts on its object and leaves the others unchanged. -/
def famSpec (S : Spec σ Op Res) : Spec (Nat → σ) (Nat × Op) Res where
  init := fun _ => S.init
  step s op r s' := S.step (s op.1) op.2 r (s' op.1) ∧ ∀ y, y ≠ op.1 → s' y = s y

/-! ## Projections -/

/-- Proof only: the log of a family: caller, object and operation, result. -/
abbrev FLog (Op Res : Type) := List (Nat × (Nat × Op) × Res)

/-- The commits of the object `x`. -/
def plog (x : Nat) (l : FLog Op Res) : List (Nat × Op × Res) := (l.filter fun e => e.2.1.1 = x).map fun e => (e.1, e.2.1.2, e.2.2)

/-- How many of the first `n` commits are commits of the object `x`. -/
def cnt (x : Nat) (l : FLog Op Res) (n : Nat) : Nat := (plog x (l.take n)).length

/-- The calls of the object `x`. -/
def View.at (v : View (Nat × Op) Res S') (x : Nat) : View Op Res S' := fun j => match v j with
  | some ((y, op), z) => if y = x then some (op, z) else none
  | none => none

/-- Proof only: the status of a call, without the number of the object. -/
def Status.strip : Status (Nat × Op) Res → Status Op Res
  | .idle => .idle
  | .invoked op => .invoked op.2
  | .committed op r => .committed op.2 r
  | .done => .done

theorem plog_append (x : Nat) (l l' : FLog Op Res) : plog x (l ++ l') = plog x l ++ plog x l' := by simp [plog]

theorem cnt_zero (x : Nat) (l : FLog Op Res) : cnt x l 0 = 0 := by simp [cnt, plog]

theorem cnt_all (x : Nat) (l : FLog Op Res) : cnt x l l.length = (plog x l).length := by simp [cnt]

theorem cnt_append (x : Nat) (l l' : FLog Op Res) {n : Nat} (h : n ≤ l.length) : cnt x (l ++ l') n = cnt x l n := by
  simp [cnt, List.take_append_of_le_length h]

theorem cnt_succ (x : Nat) (l : FLog Op Res) (n : Nat) : cnt x l n ≤ cnt x l (n + 1) ∧ cnt x l (n + 1) ≤ cnt x l n + 1 := by
  simp only [cnt, List.take_add_one, plog_append, List.length_append]
  cases l[n]? with
  | none => simp [plog]
  | some e =>
    simp only [Option.toList_some, plog, List.length_map]
    have := List.length_filter_le (fun e : Nat × (Nat × Op) × Res => decide (e.2.1.1 = x)) [e]
    simp only [List.length_singleton] at this
    omega

theorem cnt_mono (x : Nat) (l : FLog Op Res) {n m : Nat} (h : n ≤ m) : cnt x l n ≤ cnt x l m := by
  induction h with
  | refl => exact Nat.le_refl _
  | step _ ih => exact Nat.le_trans ih (cnt_succ x l _).1

/-- Every value between is taken. -/
theorem cnt_between (x : Nat) (l : FLog Op Res) {a b k : Nat} (hab : a ≤ b) (h1 : cnt x l a ≤ k) (h2 : k ≤ cnt x l b) :
    ∃ n, a ≤ n ∧ n ≤ b ∧ cnt x l n = k := by
  induction b with
  | zero => exact ⟨0, hab, Nat.le_refl _, by have : a = 0 := by omega
                                             subst this; omega⟩
  | succ b ih =>
    by_cases he : a = b + 1
    · subst he; exact ⟨b + 1, Nat.le_refl _, Nat.le_refl _, by omega⟩
    · by_cases hk : k ≤ cnt x l b
      · obtain ⟨n, e1, e2, e3⟩ := ih (by omega) hk
        exact ⟨n, e1, by omega, e3⟩
      · have := cnt_succ x l b
        exact ⟨b + 1, hab, Nat.le_refl _, by omega⟩

/-- The commits of an object are commits of the family. -/
theorem plog_get {x : Nat} : ∀ {l : FLog Op Res} {c : Nat} {j : Nat} {op : Op} {r : Res}, (plog x l)[c]? = some (j, op, r) →
    ∃ d, l[d]? = some (j, (x, op), r) ∧ cnt x l d = c := by
  intro l
  induction l with
  | nil => intro c j op r h; simp [plog] at h
  | cons e l ih =>
    intro c j op r h
    obtain ⟨j', ⟨y, op'⟩, r'⟩ := e
    by_cases hy : y = x
    · subst hy
      have e1 : plog y ((j', (y, op'), r') :: l) = (j', op', r') :: plog y l := by simp [plog]
      rw [e1] at h
      cases c with
      | zero =>
        simp only [List.getElem?_cons_zero, Option.some.injEq, Prod.mk.injEq] at h
        obtain ⟨rfl, rfl, rfl⟩ := h
        exact ⟨0, by simp, cnt_zero _ _⟩
      | succ c =>
        obtain ⟨d, h1, h2⟩ := ih (by simpa using h)
        refine ⟨d + 1, by simpa using h1, ?_⟩
        simp only [cnt, List.take_succ_cons] at h2 ⊢
        rw [show plog y ((j', (y, op'), r') :: l.take d) = (j', op', r') :: plog y (l.take d) by simp [plog], List.length_cons, h2]
    · have e1 : ∀ l : FLog Op Res, plog x ((j', (y, op'), r') :: l) = plog x l := by intro l; simp [plog, hy]
      rw [e1] at h
      obtain ⟨d, h1, h2⟩ := ih h
      refine ⟨d + 1, by simpa using h1, ?_⟩
      simp only [cnt, List.take_succ_cons, e1] at h2 ⊢
      exact h2

/-- `gx` is what the ghost `gh` of the family is for the object `x`. -/
structure Rel (x : Nat) (v : View (Nat × Op) Res S') (gh : Ghost (Nat → σ) (Nat × Op) Res) (gx : Ghost σ Op Res) : Prop where
  log : gx.log = plog x gh.log
  at' : ∀ n, n ≤ gh.log.length → gx.at' (cnt x gh.log n) = gh.at' n x
  mine : ∀ j op z, v j = some ((x, op), z) →
    gx.st j = (gh.st j).strip ∧ gx.start j = cnt x gh.log (gh.start j) ∧ gx.fin j = (gh.fin j).map (cnt x gh.log)
  other : ∀ j, v.at x j = none → gx.st j = .idle

theorem Rel.len {x : Nat} {v : View (Nat × Op) Res S'} {gh : Ghost (Nat → σ) (Nat × Op) Res} {gx : Ghost σ Op Res} (h : Rel x v gh gx) :
    gx.log.length = cnt x gh.log gh.log.length := by rw [cnt_all, h.log]

theorem Rel.cur {x : Nat} {v : View (Nat × Op) Res S'} {gh : Ghost (Nat → σ) (Nat × Op) Res} {gx : Ghost σ Op Res} (h : Rel x v gh gx) :
    gx.cur = gh.cur x := by
  unfold Ghost.cur
  rw [h.len]
  exact h.at' _ (Nat.le_refl _)

theorem View.at_mine {v : View (Nat × Op) Res S'} {x j : Nat} {op : Op} {z : S' ⊕ Res} (h : v j = some ((x, op), z)) :
    v.at x j = some (op, z) := by simp [View.at, h]

theorem View.at_some {v : View (Nat × Op) Res S'} {x j : Nat} {op : Op} {z : S' ⊕ Res} (h : v.at x j = some (op, z)) :
    v j = some ((x, op), z) := by
  unfold View.at at h
  split at h
  · rename_i y o z' hv
    split at h
    · rename_i he; subst he
      simp only [Option.some.injEq, Prod.mk.injEq] at h
      rw [hv, h.1, h.2]
    · simp at h
  · simp at h

theorem View.at_upd {v : View (Nat × Op) Res S'} {x j : Nat} {op : Op} {z : S' ⊕ Res} :
    View.at (upd v j (some ((x, op), z))) x = upd (v.at x) j (some (op, z)) := by
  funext i
  by_cases hi : i = j
  · subst hi; simp [View.at]
  · simp [View.at, upd_ne _ _ hi]

theorem View.at_upd_ne {v : View (Nat × Op) Res S'} {x y j : Nat} {op : Op} {z : S' ⊕ Res} (hy : y ≠ x) (hv : v.at y j = none) :
    View.at (upd v j (some ((x, op), z))) y = v.at y := by
  funext i
  by_cases hi : i = j
  · subst hi; rw [hv]; simp [View.at, hy.symm]
  · simp [View.at, upd_ne _ _ hi]

theorem View.at_none_of_ne {v : View (Nat × Op) Res S'} {x y j : Nat} {op : Op} {z : S' ⊕ Res} (hy : y ≠ x) (hv : v j = some ((x, op), z)) :
    v.at y j = none := by simp [View.at, hv, hy.symm]

theorem View.at_none {v : View (Nat × Op) Res S'} {y j : Nat} (hv : v j = none) : v.at y j = none := by simp [View.at, hv]

/-- A call does not return before it starts. -/
theorem start_le_fin {S : Spec σ Op Res} {g : Ghost σ Op Res} (h : GReach S g) : ∀ {i f : Nat}, g.fin i = some f → g.start i ≤ f := by
  induction h with
  | init => intro i f hf; simp [Ghost.init] at hf
  | @step g g' hg hs ih =>
    have hG := ginv_reach hg
    intro i f hf
    have hret : ∀ j, g'.fin = upd g.fin j (some g.log.length) → g'.start = g.start → g'.start i ≤ f := by
      intro j e1 e2
      rw [e1] at hf
      rw [e2]
      by_cases hij : i = j
      · subst hij; simp only [upd_same, Option.some.injEq] at hf; rw [← hf]; exact hG.startLe i
      · rw [upd_ne _ _ hij] at hf; exact ih hf
    cases hs with
    | invoke j o h1 =>
      have hij : i ≠ j := by
        rintro rfl
        have := (hG.finSt i).mp (by simp only [Ghost.invoke] at hf; simp [hf])
        rw [h1] at this; simp at this
      simp only [Ghost.invoke, upd_ne _ _ hij] at hf ⊢
      exact ih hf
    | commit j o r s' h1 h2 => exact ih hf
    | retC j o r h1 => exact hret j rfl rfl
    | retR j k o r h1 h2 h3 h4 => exact hret j rfl rfl

/-- Instants of a call of the object are instants of the call of the family. -/
theorem Rel.inst {S : Spec σ Op Res} {x : Nat} {v : View (Nat × Op) Res S'} {gh : Ghost (Nat → σ) (Nat × Op) Res} {gx : Ghost σ Op Res}
    (hg : GReach (famSpec S) gh) (h : Rel x v gh gx) {j k b : Nat} {op : Op} {z : S' ⊕ Res} (hv : v j = some ((x, op), z)) (hi : gx.Inst j k)
    (hb : gh.start j ≤ b) (hk : k ≤ cnt x gh.log b) :
    ∃ n, gh.Inst j n ∧ n ≤ b ∧ gh.at' n x = gx.at' k ∧ cnt x gh.log n = k := by
  have hG := ginv_reach hg
  obtain ⟨-, h2, h3⟩ := h.mine j op z hv
  obtain ⟨i1, i2⟩ := hi
  have hfin : k ≤ cnt x gh.log ((gh.fin j).getD gh.log.length) := by
    rw [h3] at i2
    cases hf : gh.fin j with
    | none => rw [hf] at i2; simpa [h.len] using i2
    | some f => rw [hf] at i2; simpa using i2
  have hle : (gh.fin j).getD gh.log.length ≤ gh.log.length := by
    cases hf : gh.fin j with
    | none => simp
    | some f => simpa using hG.finLe j f hf
  rw [h2] at i1
  have hsf : gh.start j ≤ (gh.fin j).getD gh.log.length := by
    cases hf : gh.fin j with
    | none => simpa using hG.startLe j
    | some f => simpa using start_le_fin hg hf
  rcases Nat.le_total b ((gh.fin j).getD gh.log.length) with hbf | hbf
  · obtain ⟨n, e1, e2, e3⟩ := cnt_between x gh.log hb i1 hk
    exact ⟨n, ⟨e1, by omega⟩, e2, by rw [← h.at' n (by omega), e3], e3⟩
  · obtain ⟨n, e1, e2, e3⟩ := cnt_between x gh.log hsf i1 hfin
    exact ⟨n, ⟨e1, e2⟩, by omega, by rw [← h.at' n (by omega), e3], e3⟩

/-! ## The simulation -/

theorem gstep_facts {S : Spec σ Op Res} {gh : Ghost σ Op Res} (hg : GReach S gh) {i : Nat} (h : gh.st i ≠ .done) : gh.fin i = none := by
  by_contra hc
  exact h (((ginv_reach hg).finSt i).mp hc)

/-- The invariant of the family. -/
def IFam (S : Spec σ Op Res) (I : G → View Op Res S' → Ghost σ Op Res → Prop) (g : Nat → G) (v : View (Nat × Op) Res S')
    (gh : Ghost (Nat → σ) (Nat × Op) Res) : Prop :=
  (∀ j op z, v j = some (op, z) → ∀ o, gh.st j = .invoked o → o = op) ∧
  (∀ j op z, v j = some (op, z) → ∀ o r, gh.st j = .committed o r → o = op) ∧
  ∀ x, ∃ gx, GReach S gx ∧ I (g x) (v.at x) gx ∧ Rel x v gh gx

theorem Prog.simulate_family (P : Prog G Op Res S') (S : Spec σ Op Res) (I : G → View Op Res S' → Ghost σ Op Res → Prop)
    {g₀ : Nat → G} (h0 : ∀ x, I (g₀ x) (fun _ => none) (Ghost.init S))
    (hinv : ∀ g v gh i op, GReach S gh → I g v gh → v i = none → gh.st i = .idle → I g (upd v i (some (op, .inl (P.begin op)))) (gh.invoke i op))
    (hstep : ∀ g v gh i op s c g' x, GReach S gh → I g v gh → v i = some (op, .inl s) → P.step g i op s c = some (g', x) →
      I g' (upd v i (some (op, x))) gh ∨
      ∃ r s', gh.st i = .invoked op ∧ S.step gh.cur op r s' ∧ I g' (upd v i (some (op, x))) (gh.commit i op r s'))
    (hret : ∀ g v gh i op r, GReach S gh → I g v gh → v i = some (op, .inr r) → gh.st i ≠ .done →
      (gh.st i = .committed op r ∧ I g v (gh.retC i r)) ∨
      ∃ k, gh.st i = .invoked op ∧ gh.start i ≤ k ∧ k ≤ gh.log.length ∧ S.step (gh.at' k) op r (gh.at' k) ∧ I g v (gh.retR i k op r))
    {m : Conf (Nat → G) (Nat × Op) Res S'} {H : List (Ev (Nat × Op) Res)} (h : (P.family.from g₀).mach.Exec m H) :
    ∃ gh, GReach (famSpec S) gh ∧ gh.hist = H ∧ IFam S I m.g m.view gh := by
  refine (P.family.from g₀).simulate (famSpec S) (IFam S I) ?_ ?_ ?_ ?_ h
  · refine ⟨by simp, by simp, fun x => ⟨Ghost.init S, .init, h0 x, ?_⟩⟩
    constructor <;> simp [Ghost.init, plog, cnt, famSpec]
  · -- invocation
    rintro g v gh i ⟨x, op⟩ hg ⟨hs1, hs2, hI⟩ hv hidle
    have hG := ginv_reach hg
    refine ⟨?_, ?_, fun y => ?_⟩
    · intro j o z hj o' ho'
      by_cases hji : j = i
      · subst hji
        simp only [upd_same, Option.some.injEq, Prod.mk.injEq, Ghost.invoke, Status.invoked.injEq] at hj ho'
        rw [← ho', hj.1]
      · rw [upd_ne _ _ hji] at hj
        simp only [Ghost.invoke, upd_ne _ _ hji] at ho'
        exact hs1 j o z hj o' ho'
    · intro j o z hj o' r ho'
      by_cases hji : j = i
      · subst hji; simp [Ghost.invoke] at ho'
      · rw [upd_ne _ _ hji] at hj
        simp only [Ghost.invoke, upd_ne _ _ hji] at ho'
        exact hs2 j o z hj o' r ho'
    · obtain ⟨gx, hgx, hIx, hR⟩ := hI y
      have hGx := ginv_reach hgx
      by_cases hy : y = x
      · subst hy
        have hix : gx.st i = .idle := hR.other i (View.at_none hv)
        refine ⟨gx.invoke i op, .step hgx (.invoke _ i op hix), ?_, ?_⟩
        · have := hinv (g y) (v.at y) gx i op hgx hIx (View.at_none hv) hix
          rw [← View.at_upd] at this
          exact this
        · refine ⟨hR.log, hR.at', ?_, ?_⟩
          · intro j o z hj
            by_cases hji : j = i
            · subst hji
              simp only [upd_same, Option.some.injEq, Prod.mk.injEq] at hj
              refine ⟨by simp [Ghost.invoke, Status.strip], by simp [Ghost.invoke, hR.len], ?_⟩
              simp only [Ghost.invoke]
              rw [gstep_facts hgx (by simp [hix]), gstep_facts hg (by simp [hidle])]
              rfl
            · rw [upd_ne _ _ hji] at hj
              simp only [Ghost.invoke, upd_ne _ _ hji]
              exact hR.mine j o z hj
          · intro j hj
            by_cases hji : j = i
            · subst hji; rw [View.at_upd] at hj; simp at hj
            · rw [View.at_upd, upd_ne _ _ hji] at hj
              simp only [Ghost.invoke, upd_ne _ _ hji]
              exact hR.other j hj
      · refine ⟨gx, hgx, ?_, hR.log, hR.at', ?_, ?_⟩
        · rw [View.at_upd_ne hy (View.at_none hv)]; exact hIx
        · intro j o z hj
          by_cases hji : j = i
          · subst hji; simp only [upd_same, Option.some.injEq, Prod.mk.injEq] at hj; exact absurd hj.1.1.symm hy
          · rw [upd_ne _ _ hji] at hj
            simp only [Ghost.invoke, upd_ne _ _ hji]
            exact hR.mine j o z hj
        · intro j hj
          rw [View.at_upd_ne hy (View.at_none hv)] at hj
          exact hR.other j hj
  · -- step
    rintro g v gh i ⟨x, op⟩ s c g' z hg ⟨hs1, hs2, hI⟩ hv hst
    have hG := ginv_reach hg
    simp only [Prog.from, Prog.family, Option.map_eq_some_iff] at hst
    obtain ⟨⟨gx', z'⟩, hst, he⟩ := hst
    simp only [Prod.mk.injEq] at he
    obtain ⟨rfl, rfl⟩ := he
    obtain ⟨gx, hgx, hIx, hR⟩ := hI x
    have hmine := hR.mine i op _ hv
    -- the calls of the objects do not change
    have hatx : View.at (upd v i (some ((x, op), z'))) x = upd (v.at x) i (some (op, z')) := View.at_upd
    have haty : ∀ y, y ≠ x → View.at (upd v i (some ((x, op), z'))) y = v.at y := fun y hy => View.at_upd_ne hy (View.at_none_of_ne hy hv)
    have hback : ∀ j o w, upd v i (some ((x, op), z')) j = some (o, w) → ∃ w', v j = some (o, w') := by
      intro j o w hj
      by_cases hji : j = i
      · subst hji; simp only [upd_same, Option.some.injEq, Prod.mk.injEq] at hj; exact ⟨_, by rw [hv, ← hj.1]⟩
      · rw [upd_ne _ _ hji] at hj; exact ⟨w, hj⟩
    have hnone : ∀ y j, View.at (upd v i (some ((x, op), z'))) y j = none → v.at y j = none := by
      intro y j hj
      by_cases hy : y = x
      · subst hy
        rw [hatx] at hj
        by_cases hji : j = i
        · subst hji; simp at hj
        · rw [upd_ne _ _ hji] at hj; exact hj
      · rw [haty y hy] at hj; exact hj
    rcases hstep (g x) (v.at x) gx i op s c gx' z' hgx hIx (View.at_mine hv) hst with hnew | ⟨r, s', h1, h2, hnew⟩
    · left
      refine ⟨?_, ?_, fun y => ?_⟩
      · intro j o w hj o' ho'
        obtain ⟨w', hj'⟩ := hback j o w hj
        exact hs1 j o w' hj' o' ho'
      · intro j o w hj o' r ho'
        obtain ⟨w', hj'⟩ := hback j o w hj
        exact hs2 j o w' hj' o' r ho'
      · obtain ⟨gy, hgy, hIy, hRy⟩ := hI y
        have hRel : ∀ gy, Rel y v gh gy → Rel y (upd v i (some ((x, op), z'))) gh gy := by
          intro gy hRy
          refine ⟨hRy.log, hRy.at', fun j o w hj => ?_, fun j hj => hRy.other j (hnone y j hj)⟩
          obtain ⟨w', hj'⟩ := hback j _ w hj
          exact hRy.mine j o w' hj'
        by_cases hy : y = x
        · subst hy
          exact ⟨gx, hgx, by rw [hatx]; simpa using hnew, hRel gx hR⟩
        · exact ⟨gy, hgy, by rw [haty y hy]; simpa [upd_ne _ _ hy] using hIy, hRel gy hRy⟩
    · right
      have hgi : gh.st i = .invoked (x, op) := by
        have := hmine.1
        rw [h1] at this
        cases hgs : gh.st i with
        | idle => rw [hgs] at this; simp [Status.strip] at this
        | invoked o => rw [hs1 i _ _ hv o hgs]
        | committed o r => rw [hgs] at this; simp [Status.strip] at this
        | done => rw [hgs] at this; simp [Status.strip] at this
      refine ⟨r, upd gh.cur x s', hgi, ⟨by simpa [hR.cur] using h2, fun y hy => upd_ne _ _ hy⟩, ?_, ?_, fun y => ?_⟩
      · intro j o w hj o' ho'
        obtain ⟨w', hj'⟩ := hback j o w hj
        by_cases hji : j = i
        · subst hji; simp [Ghost.commit] at ho'
        · simp only [Ghost.commit, upd_ne _ _ hji] at ho'
          exact hs1 j o w' hj' o' ho'
      · intro j o w hj o' r' ho'
        obtain ⟨w', hj'⟩ := hback j o w hj
        by_cases hji : j = i
        · subst hji
          simp only [Ghost.commit, upd_same, Status.committed.injEq] at ho'
          rw [hv] at hj'
          simp only [Option.some.injEq, Prod.mk.injEq] at hj'
          rw [← ho'.1, hj'.1]
        · simp only [Ghost.commit, upd_ne _ _ hji] at ho'
          exact hs2 j o w' hj' o' r' ho'
      · obtain ⟨gy, hgy, hIy, hRy⟩ := hI y
        have hcnt : ∀ n, n ≤ gh.log.length → cnt y (gh.log ++ [(i, (x, op), r)]) n = cnt y gh.log n := fun n hn => cnt_append _ _ _ hn
        have hfin : ∀ j, (gh.fin j).map (cnt y (gh.log ++ [(i, (x, op), r)])) = (gh.fin j).map (cnt y gh.log) := by
          intro j
          cases hf : gh.fin j with
          | none => rfl
          | some f => simp [hcnt f (hG.finLe j f hf)]
        by_cases hy : y = x
        · subst hy
          refine ⟨gx.commit i op r s', .step hgx (.commit _ i op r s' h1 h2), by rw [hatx]; simpa using hnew, ?_, ?_, ?_, ?_⟩
          · simp [Ghost.commit, hR.log, plog]
          · intro n hn
            simp only [Ghost.commit, List.length_append, List.length_singleton] at hn ⊢
            by_cases hlt : n ≤ gh.log.length
            · rw [hcnt n hlt, upd_ne _ _ (show n ≠ gh.log.length + 1 by omega), upd_ne, hR.at' n hlt]
              have := cnt_mono y gh.log hlt
              rw [← hR.len] at this
              omega
            · have hn' : n = gh.log.length + 1 := by omega
              subst hn'
              have e1 : cnt y (gh.log ++ [(i, (y, op), r)]) (gh.log.length + 1) = gx.log.length + 1 := by
                have := cnt_all y (gh.log ++ [(i, (y, op), r)])
                simp only [List.length_append, List.length_singleton] at this
                rw [this, plog_append, hR.log]
                simp [plog]
              rw [e1]
              simp
          · intro j o w hj
            obtain ⟨w', hj'⟩ := hback j _ w hj
            obtain ⟨m1, m2, m3⟩ := hR.mine j o w' hj'
            simp only [Ghost.commit]
            refine ⟨?_, by rw [m2, hcnt _ (hG.startLe j)], by rw [m3, hfin]⟩
            by_cases hji : j = i
            · subst hji; simp [Status.strip]
            · simp only [upd_ne _ _ hji]; exact m1
          · intro j hj
            have := hnone _ j hj
            have hji : j ≠ i := by rintro rfl; rw [View.at_mine hv] at this; simp at this
            simp only [Ghost.commit, upd_ne _ _ hji]
            exact hR.other j this
        · refine ⟨gy, hgy, by rw [haty y hy]; simpa [upd_ne _ _ hy] using hIy, ?_, ?_, ?_, fun j hj => hRy.other j (hnone y j hj)⟩
          · simp only [Ghost.commit, plog_append, hRy.log]
            simp [plog, Ne.symm hy]
          · intro n hn
            simp only [Ghost.commit, List.length_append, List.length_singleton] at hn ⊢
            by_cases hlt : n ≤ gh.log.length
            · rw [hcnt n hlt, upd_ne _ _ (show n ≠ gh.log.length + 1 by omega), hRy.at' n hlt]
            · have hn' : n = gh.log.length + 1 := by omega
              subst hn'
              have e1 : cnt y (gh.log ++ [(i, (x, op), r)]) (gh.log.length + 1) = cnt y gh.log gh.log.length := by
                have := cnt_all y (gh.log ++ [(i, (x, op), r)])
                simp only [List.length_append, List.length_singleton] at this
                rw [this, plog_append, cnt_all]
                simp [plog, Ne.symm hy]
              rw [e1, hRy.at' _ (Nat.le_refl _)]
              simp [upd_ne _ _ hy, Ghost.cur]
          · intro j o w hj
            obtain ⟨w', hj'⟩ := hback j _ w hj
            obtain ⟨m1, m2, m3⟩ := hRy.mine j o w' hj'
            have hji : j ≠ i := by
              rintro rfl
              rw [hv] at hj'
              simp only [Option.some.injEq, Prod.mk.injEq] at hj'
              exact hy hj'.1.1.symm
            simp only [Ghost.commit]
            exact ⟨by simp only [upd_ne _ _ hji]; exact m1, by rw [m2, hcnt _ (hG.startLe j)], by rw [m3, hfin]⟩
  · -- return
    rintro g v gh i ⟨x, op⟩ r hg ⟨hs1, hs2, hI⟩ hv hnd
    have hG := ginv_reach hg
    obtain ⟨gx, hgx, hIx, hR⟩ := hI x
    have hmine := hR.mine i op _ hv
    have hndx : gx.st i ≠ .done := by
      rw [hmine.1]
      cases hgs : gh.st i <;> simp_all [Status.strip]
    -- what a return changes
    have key : ∀ (gh' : Ghost (Nat → σ) (Nat × Op) Res), gh'.st = upd gh.st i .done → gh'.fin = upd gh.fin i (some gh.log.length) →
        gh'.log = gh.log → gh'.at' = gh.at' → gh'.start = gh.start →
        (∃ gx', GReach S gx' ∧ I (g x) (v.at x) gx' ∧ gx'.st = upd gx.st i .done ∧ gx'.fin = upd gx.fin i (some gx.log.length) ∧
          gx'.log = gx.log ∧ gx'.at' = gx.at' ∧ gx'.start = gx.start) → IFam S I g v gh' := by
      rintro gh' e1 e2 e3 e4 e5 ⟨gx', q1, q2, f1, f2, f3, f4, f5⟩
      refine ⟨?_, ?_, fun y => ?_⟩
      · intro j o w hj o' ho'
        rw [e1] at ho'
        by_cases hji : j = i
        · subst hji; simp at ho'
        · rw [upd_ne _ _ hji] at ho'; exact hs1 j o w hj o' ho'
      · intro j o w hj o' r' ho'
        rw [e1] at ho'
        by_cases hji : j = i
        · subst hji; simp at ho'
        · rw [upd_ne _ _ hji] at ho'; exact hs2 j o w hj o' r' ho'
      · obtain ⟨gy, hgy, hIy, hRy⟩ := hI y
        by_cases hy : y = x
        · subst hy
          refine ⟨gx', q1, q2, by rw [f3, e3]; exact hR.log, by rw [f4, e3, e4]; exact hR.at', ?_, ?_⟩
          · intro j o w hj
            rw [f1, f2, f5, e1, e2, e3, e5]
            by_cases hji : j = i
            · subst hji
              refine ⟨by simp [Status.strip], hmine.2.1, by simp [hR.len]⟩
            · simp only [upd_ne _ _ hji]; exact hR.mine j o w hj
          · intro j hj
            have hji : j ≠ i := by rintro rfl; rw [View.at_mine hv] at hj; simp at hj
            rw [f1, upd_ne _ _ hji]
            exact hR.other j hj
        · refine ⟨gy, hgy, hIy, by rw [e3]; exact hRy.log, by rw [e3, e4]; exact hRy.at', ?_, hRy.other⟩
          intro j o w hj
          have hji : j ≠ i := by
            rintro rfl
            rw [hv] at hj
            simp only [Option.some.injEq, Prod.mk.injEq] at hj
            exact hy hj.1.1.symm
          rw [e1, e2, e3, e5]
          simp only [upd_ne _ _ hji]; exact hRy.mine j o w hj
    rcases hret (g x) (v.at x) gx i op r hgx hIx (View.at_mine hv) hndx with ⟨hc, hI'⟩ | ⟨k, hi', hk1, hk2, hsp, hI'⟩
    · left
      refine ⟨?_, key _ rfl rfl rfl rfl rfl ⟨_, .step hgx (.retC _ i op r hc), hI', rfl, rfl, rfl, rfl, rfl⟩⟩
      have := hmine.1
      rw [hc] at this
      cases hgs : gh.st i with
      | committed o r' =>
        have ho := hs2 i _ _ hv o r' hgs
        rw [hgs] at this
        simp only [Status.strip, Status.committed.injEq] at this
        rw [ho, this.2]
      | idle => rw [hgs] at this; simp [Status.strip] at this
      | invoked o => rw [hgs] at this; simp [Status.strip] at this
      | done => rw [hgs] at this; simp [Status.strip] at this
    · right
      have hnf : gx.fin i = none := gstep_facts hgx hndx
      obtain ⟨n, n1, n2, n3, n4⟩ := hR.inst hg hv (b := gh.log.length) ⟨hk1, by rw [hnf]; simpa using hk2⟩ (hG.startLe i) (by rw [← hR.len]; exact hk2)
      refine ⟨n, ?_, n1.1, n2, ⟨by simpa [n3] using hsp, fun y _ => rfl⟩,
        key _ rfl rfl rfl rfl rfl ⟨_, .step hgx (.retR _ i k op r hi' hk1 hk2 hsp), hI', rfl, rfl, rfl, rfl, rfl⟩⟩
      have := hmine.1
      rw [hi'] at this
      cases hgs : gh.st i with
      | invoked o => rw [hs1 i _ _ hv o hgs]
      | idle => rw [hgs] at this; simp [Status.strip] at this
      | committed o r' => rw [hgs] at this; simp [Status.strip] at this
      | done => rw [hgs] at this; simp [Status.strip] at this

end Verif.Conc

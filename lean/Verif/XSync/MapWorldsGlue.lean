import Verif.XSync.MapWorldsStep
import Verif.Conc.Marks
/-!
# `Clear` concurrent with other operations: one linearization from those of the worlds

The linearizations of the worlds, with the observations of the calls, are put one after the other, with the `Clear` that ended a world between it and the next one.
-/
namespace Verif.XSync.MapWords
open Verif.Conc Verif.Go Verif.XSync.MapConc

variable {K V : Type} [DecidableEq K] [DecidableEq V]

/-- What the observations in a marked linearization say about the result of a call. -/
def Shows {O : Type} (X : List (Nat × Option O × Res K V)) (st : Nat → MapConc.M K V) (i : Nat) (op : Op K V) (r : Res K V) : Prop :=
  Sees op r (fun s => ∃ n, X[n]? = some (i, none, r) ∧ st n = s)
    (fun s => ∃ n n' o r', X[n]? = some (i, none, r) ∧ st n = s ∧ n ≤ n' ∧ X[n']? = some (i, some o, r'))

omit [DecidableEq V] in
/-- Every world has a linearization, in which only calls are that got beyond the lock. -/
theorem World.Ok.marked {w : World K V} (h : w.Ok) : ∃ X st, Marked mapSpec (fun _ => False) w.gh.hist X st ∧
    (∀ x ∈ X, ∀ op, ¬ Away w x.1 op) ∧ ∀ i op r, Ev.ret i r ∈ w.gh.hist → w.v i = some (op, .inr r) → Shows X st i op r := by
  obtain ⟨X, st, hX, he, _, ho⟩ := h.reach.marked
  refine ⟨X, st, hX, ?_, ?_⟩
  · rintro x hx op (hv | hv)
    · obtain ⟨op', h1⟩ := (hX.called x hx).1
      exact (ginv_reach h.reach).idle x.1 (h.idle x.1 hv) _ h1
    · exact he x hx op (h.inv.floc x.1 op _ hv)
  · intro i op r hr hv
    unfold Shows
    refine resOk_mono ?_ ?_ (h.inv.fin i op r hv).2
    · rintro k x ⟨j, h1, h2⟩
      obtain ⟨n, a1, a2, _⟩ := ho i j r hr h1
      exact ⟨st n, ⟨n, a1, rfl⟩, by rw [a2, h2]⟩
    · rintro k w ⟨c, j, o, r', h1, h2, h3, h4⟩
      obtain ⟨n, a1, a2, a3⟩ := ho i j r hr h2
      obtain ⟨n', a4, a5⟩ := a3 c _ _ _ h1 h3
      exact ⟨st n, ⟨n, n', o, r', a1, rfl, a5, a4⟩, by rw [a2, h4]⟩

/-- The place of a call: `2 * w` in the world `w`, and `2 * w + 1` for the `Clear` that ended it. -/
def Place (n : Nat) (W : Nat → World K V) (cl : Nat → Nat) (a p : Nat) : Prop :=
  (∃ w, p = 2 * w ∧ w ≤ n ∧ ∃ op y, (W w).v a = some (op, y) ∧ y ≠ .inl .lock) ∨ ∃ w, p = 2 * w + 1 ∧ w < n ∧ cl w = a

section
variable {M : GW K V} {v : VwW K V} {H : HW K V} {n : Nat} {W : Nat → World K V} {Hp : Nat → HW K V} {cl : Nat → Nat} {a b p q : Nat}

omit [DecidableEq V] in
theorem Phys.one (h : Phys M v n W) {w w' : Nat} (hw : w ≤ n) (hw' : w' ≤ n) {op op' : Op K V} {y y' : Pt K V ⊕ Res K V}
    (hv : (W w).v a = some (op, y)) (hy : y ≠ .inl .lock) (hv' : (W w').v a = some (op', y')) (hy' : y' ≠ .inl .lock) : w = w' := by
  have na : ∀ o, ¬ Away (W w) a o := by
    rintro o (h | h) <;> rw [hv] at h <;> simp at h
    exact hy h.2
  have na' : ∀ o, ¬ Away (W w') a o := by
    rintro o (h | h) <;> rw [hv'] at h <;> simp at h
    exact hy' h.2
  have loc : ∀ o z c, Loc W n a o z c → w = w' := by
    rintro o z c ⟨u, h1, h2, h3, h4⟩
    have e1 : w = u := Classical.byContradiction fun e => na o (h4 w hw e)
    have e2 : w' = u := Classical.byContradiction fun e => na' o (h4 w' hw' e)
    rw [e1, e2]
  have non : ¬ ∀ w, w ≤ n → (W w).v a = none := by
    intro h; have := h w hw; rw [hv] at this; simp at this
  have hc := h.calls a
  unfold CallRel at hc
  split at hc <;> first
    | exact absurd hc non
    | exact hc.elim
    | exact absurd (hc w hw) (na _)
    | exact loc _ _ _ hc.2
    | exact hc.elim (loc _ _ _) (fun h => absurd h.2 non)

omit [DecidableEq V] in
theorem Place.unique (h1 : Phys M v n W) (h2 : Hst v H n W Hp cl) (hp : Place n W cl a p) (hq : Place n W cl a q) : p = q := by
  have mix : ∀ w w', w ≤ n → w' < n → cl w' = a → ∀ op y, (W w).v a ≠ some (op, y) := by
    intro w w' hw hw' hc op y hv
    obtain ⟨⟨x, hx, _⟩, _⟩ := h2.clear w' hw'
    obtain ⟨x', hx'⟩ := (h1.calls a).inl hw hv
    rw [hc, hx'] at hx; simp at hx
  rcases hp with ⟨w, rfl, hw, op, y, hv, hy⟩ | ⟨w, rfl, hw, hc⟩ <;> rcases hq with ⟨w', rfl, hw', op', y', hv', hy'⟩ | ⟨w', rfl, hw', hc'⟩
  · rw [h1.one hw hw' hv hy hv' hy']
  · exact absurd hv (mix w w' hw hw' hc' op y)
  · exact absurd hv' (mix w' w hw' hw hc op' y')
  · rw [h2.inj w w' hw hw' (hc.trans hc'.symm)]

omit [DecidableEq K] [DecidableEq V] in
/-- Calls at later places were not over when those at earlier places began. -/
theorem Place.cross (h2 : Hst v H n W Hp cl) (hp : Place n W cl a p) (hq : Place n W cl b q) (hlt : p < q) : ¬ Before H b a := by
  intro hb
  have hi : ∃ w, w < n ∧ HasInv (Hp (w + 1)) a ∧ 2 * w ≤ p ∧ p ≤ 2 * w + 1 := by
    rcases hp with ⟨w, rfl, hw, op, y, hv, hy⟩ | ⟨w, rfl, hw, hc⟩
    · have hw : w < n := by rcases hq with ⟨w', rfl, hw', _⟩ | ⟨w', rfl, hw', _⟩ <;> omega
      exact ⟨w, hw, h2.early w hw a (by rw [hv]; simp), by omega, by omega⟩
    · exact ⟨w, hw, hc ▸ (h2.clear w hw).2.1, by omega, by omega⟩
  obtain ⟨w, hw, hi, hp1, hp2⟩ := hi
  have hr := (h2.cut (w + 1) hw).before hi hb
  rcases hq with ⟨w', rfl, hw', op, y, hv, hy⟩ | ⟨w', rfl, hw', hc⟩
  · exact h2.late w' hw' b (by rw [hv]; simp) (h2.mono (w + 1) w' (by omega) hw' b hr)
  · have := (h2.clear w' hw').2.2
    rw [hc] at this
    exact this (h2.mono (w + 1) (w' + 1) (by omega) hw' b hr)

/-- A marked linearization of the calls whose places are between `lo` and `hi`. -/
structure Part (H : HW K V) (n : Nat) (W : Nat → World K V) (cl : Nat → Nat) (lo hi : Nat) (s₀ : MapConc.M K V)
    (X : List (Nat × Option (Op K V ⊕ ClearOp) × Res K V)) (st : Nat → MapConc.M K V) : Prop where
  once : X.Pairwise fun x y => x.2.1.isSome → y.2.1.isSome → x.1 ≠ y.1
  init : st 0 = s₀
  legal : ∀ m i o r, X[m]? = some (i, o, r) → mapSpecC.seen.step (st m) o r (st (m + 1))
  order : X.Pairwise fun x y => ¬ Before H y.1 x.1
  inv : ∀ i o r, (i, some o, r) ∈ X → Ev.inv i o ∈ H
  mem : ∀ x ∈ X, (∃ o, Ev.inv x.1 o ∈ H) ∧ ∃ p, lo ≤ p ∧ p ≤ hi ∧ Place n W cl x.1 p
  ret : ∀ w i r, lo ≤ 2 * w → 2 * w ≤ hi → Ev.ret i r ∈ (W w).gh.hist → ∃ op, (i, some op, r) ∈ X
  clr : ∀ w, lo ≤ 2 * w + 1 → 2 * w + 1 ≤ hi → (cl w, some (.inr .clear), .unit) ∈ X
  obs : ∀ w i op r, lo ≤ 2 * w → 2 * w ≤ hi → Ev.ret i r ∈ (W w).gh.hist → (W w).v i = some (op, .inr r) → Shows X st i op r

omit [DecidableEq V] in
theorem Part.append (h1 : Phys M v n W) (h2 : Hst v H n W Hp cl) {lo mid hi : Nat} {s₀ : MapConc.M K V} {X₀ X₁ : List (Nat × Option (Op K V ⊕ ClearOp) × Res K V)}
    {st₀ st₁ : Nat → MapConc.M K V} (hmid : mid ≤ hi) (hlo : lo ≤ mid + 1)
    (p0 : Part H n W cl lo mid s₀ X₀ st₀) (p1 : Part H n W cl (mid + 1) hi (st₀ X₀.length) X₁ st₁) :
    Part H n W cl lo hi s₀ (X₀ ++ X₁) (glue X₀.length st₀ st₁) := by
  have left : ∀ {m : Nat} {x : Nat × Option (Op K V ⊕ ClearOp) × Res K V}, X₀[m]? = some x → (X₀ ++ X₁)[m]? = some x ∧ glue X₀.length st₀ st₁ m = st₀ m := by
    intro m x hm
    have hlt := (List.getElem?_eq_some_iff.mp hm).1
    exact ⟨by rw [List.getElem?_append_left hlt]; exact hm, glue_left p1.init (by omega)⟩
  have right : ∀ {m : Nat} {x : Nat × Option (Op K V ⊕ ClearOp) × Res K V}, X₁[m]? = some x →
      (X₀ ++ X₁)[X₀.length + m]? = some x ∧ glue X₀.length st₀ st₁ (X₀.length + m) = st₁ m := by
    intro m x hm
    exact ⟨by rw [List.getElem?_append_right (by omega), Nat.add_sub_cancel_left]; exact hm, glue_right⟩
  refine ⟨?_, ?_, ?_, ?_, ?_, ?_, ?_, ?_, ?_⟩
  · rw [List.pairwise_append]
    refine ⟨p0.once, p1.once, ?_⟩
    intro x hx y hy _ _ hab
    obtain ⟨_, p, _, q1, q2⟩ := p0.mem x hx
    obtain ⟨_, q, q3, _, q4⟩ := p1.mem y hy
    have := q2.unique h1 h2 (hab ▸ q4)
    omega
  · rw [glue_left p1.init (Nat.zero_le _)]; exact p0.init
  · intro m i o r hm
    by_cases hlt : m < X₀.length
    · rw [List.getElem?_append_left hlt] at hm
      rw [glue_left p1.init (by omega), glue_left p1.init (by omega)]
      exact p0.legal m i o r hm
    · obtain ⟨k, rfl⟩ : ∃ k, m = X₀.length + k := ⟨m - X₀.length, by omega⟩
      rw [List.getElem?_append_right (by omega), Nat.add_sub_cancel_left] at hm
      rw [Nat.add_assoc, glue_right, glue_right]
      exact p1.legal k i o r hm
  · rw [List.pairwise_append]
    refine ⟨p0.order, p1.order, ?_⟩
    intro x hx y hy
    obtain ⟨_, p, _, q1, q2⟩ := p0.mem x hx
    obtain ⟨_, q, q3, _, q4⟩ := p1.mem y hy
    exact q2.cross h2 q4 (by omega)
  · intro i o r hx
    rw [List.mem_append] at hx
    exact hx.elim (p0.inv i o r) (p1.inv i o r)
  · intro x hx
    rw [List.mem_append] at hx
    rcases hx with hx | hx
    · obtain ⟨a1, p, a2, a3, a4⟩ := p0.mem x hx; exact ⟨a1, p, a2, by omega, a4⟩
    · obtain ⟨a1, p, a2, a3, a4⟩ := p1.mem x hx; exact ⟨a1, p, by omega, a3, a4⟩
  · intro w i r q1 q2 hr
    by_cases hw : 2 * w ≤ mid
    · obtain ⟨op, h⟩ := p0.ret w i r q1 hw hr; exact ⟨op, List.mem_append_left _ h⟩
    · obtain ⟨op, h⟩ := p1.ret w i r (by omega) q2 hr; exact ⟨op, List.mem_append_right _ h⟩
  · intro w q1 q2
    by_cases hw : 2 * w + 1 ≤ mid
    · exact List.mem_append_left _ (p0.clr w q1 hw)
    · exact List.mem_append_right _ (p1.clr w (by omega) q2)
  · intro w i op r q1 q2 hr hv
    by_cases hw : 2 * w ≤ mid
    · refine sees_mono _ _ _ _ _ _ ?_ ?_ (p0.obs w i op r q1 hw hr hv)
      · rintro s ⟨m, a1, a2⟩; exact ⟨m, (left a1).1, (left a1).2.trans a2⟩
      · rintro s ⟨m, m', o, r', a1, a2, a3, a4⟩
        exact ⟨m, m', o, r', (left a1).1, (left a1).2.trans a2, a3, (left a4).1⟩
    · refine sees_mono _ _ _ _ _ _ ?_ ?_ (p1.obs w i op r (by omega) q2 hr hv)
      · rintro s ⟨m, a1, a2⟩; exact ⟨_, (right a1).1, (right a1).2.trans a2⟩
      · rintro s ⟨m, m', o, r', a1, a2, a3, a4⟩
        exact ⟨_, _, o, r', (right a1).1, (right a1).2.trans a2, by omega, (right a4).1⟩

/-- An operation or observation of a world. -/
def liftX (x : Nat × Option (Op K V) × Res K V) : Nat × Option (Op K V ⊕ ClearOp) × Res K V := (x.1, x.2.1.map .inl, x.2.2)

omit [DecidableEq K] [DecidableEq V] in
theorem getElem?_liftX {X : List (Nat × Option (Op K V) × Res K V)} {n i : Nat} {o : Option (Op K V ⊕ ClearOp)} {r : Res K V}
    (h : (X.map liftX)[n]? = some (i, o, r)) : ∃ o', o = o'.map .inl ∧ X[n]? = some (i, o', r) := by
  rw [List.getElem?_map, Option.map_eq_some_iff] at h
  obtain ⟨⟨i', o', r'⟩, h1, h2⟩ := h
  simp only [liftX, Prod.mk.injEq] at h2
  obtain ⟨rfl, rfl, rfl⟩ := h2
  exact ⟨o', rfl, h1⟩

omit [DecidableEq V] in
/-- A world. -/
theorem Part.world (h1 : Phys M v n W) (h2 : Hst v H n W Hp cl) {w : Nat} (hw : w ≤ n) :
    ∃ X st, Part H n W cl (2 * w) (2 * w) (fun _ => none) X st := by
  obtain ⟨X, st, hX, hA, hO⟩ := (h1.ok w hw).marked
  -- calls in the linearization
  have hin : ∀ x ∈ X, ∃ op y, (W w).v x.1 = some (op, y) ∧ y ≠ .inl .lock := by
    intro x hx
    obtain ⟨op, ho⟩ := (hX.called x hx).1
    obtain ⟨y, hy⟩ := h2.winv w hw _ _ ho
    exact ⟨op, y, hy, by rintro rfl; exact hA x hx _ (.inr hy)⟩
  -- the order of the history is that of the world
  have hbef : ∀ a b op y op' y', (W w).v a = some (op, y) → y ≠ .inl .lock → (W w).v b = some (op', y') → Before H a b → Before (W w).gh.hist a b := by
    intro a b op y op' y' ha hy hb hab
    refine h2.order w hw a b ?_ (by rw [hb]; simp) hab
    obtain ⟨⟨r, hr⟩, _⟩ := before_mem hab
    obtain ⟨o, hv⟩ := h2.ret a r hr
    have hc := h1.calls a
    obtain ⟨x, hx⟩ := hc.inl hw ha
    rw [hv] at hx
    simp only [Option.some.injEq, Prod.mk.injEq] at hx
    obtain ⟨rfl, rfl⟩ := hx
    rw [hv] at hc
    rcases hc with ⟨u, c1, c2, _, c4⟩ | ⟨_, hn⟩
    · have : u = w := h1.one c1 hw c2 (by simp) ha hy
      subst this
      exact ⟨r, (h2.wret u hw a r).2 ⟨hr, _, c2⟩⟩
    · have := hn w hw; rw [ha] at this; simp at this
  refine ⟨X.map liftX, st, ?_, hX.init, ?_, ?_, ?_, ?_, ?_, ?_, ?_⟩
  · rw [List.pairwise_map]
    refine hX.once.imp ?_
    intro x y h s1 s2
    exact h (by simpa [liftX] using s1) (by simpa [liftX] using s2)
  · intro m i o r hm
    obtain ⟨o', rfl, hm'⟩ := getElem?_liftX hm
    have := hX.legal m i o' r hm'
    cases o' <;> exact this
  · rw [List.pairwise_map]
    refine List.Pairwise.imp_of_mem ?_ hX.order
    intro x y hx hy hn hb
    obtain ⟨_, z, hz, hz'⟩ := hin x hx
    obtain ⟨_, u, hu, hu'⟩ := hin y hy
    exact hn (hbef _ _ _ _ _ _ hu hu' hz hb)
  · intro i o r hx
    obtain ⟨m, hm⟩ := List.getElem?_of_mem hx
    obtain ⟨o', e, hm'⟩ := getElem?_liftX hm
    cases o' with
    | none => simp at e
    | some op =>
      simp only [Option.map_some, Option.some.injEq] at e
      subst e
      obtain ⟨y, hy⟩ := h2.winv w hw _ _ (hX.invoked i op r (List.mem_of_getElem? hm'))
      obtain ⟨z, hz⟩ := (h1.calls i).inl hw hy
      exact (h2.inv _ _).2 ⟨z, hz⟩
  · intro x hx
    rw [List.mem_map] at hx
    obtain ⟨x, hx, rfl⟩ := hx
    obtain ⟨op, y, hy, hy'⟩ := hin x hx
    obtain ⟨z, hz⟩ := (h1.calls x.1).inl hw hy
    exact ⟨⟨_, (h2.inv _ _).2 ⟨z, hz⟩⟩, _, Nat.le_refl _, Nat.le_refl _, Or.inl ⟨w, rfl, hw, _, y, hy, hy'⟩⟩
  · intro w' i r q1 q2 hr
    have : w' = w := by omega
    subst this
    obtain ⟨op, h⟩ := hX.returned i r hr (fun h => h)
    exact ⟨.inl op, List.mem_map.2 ⟨_, h, rfl⟩⟩
  · intro w' q1 q2; omega
  · intro w' i op r q1 q2 hr hv
    have : w' = w := by omega
    subst this
    refine sees_mono _ _ _ _ _ _ ?_ ?_ (hO i op r hr hv)
    · rintro s ⟨m, a1, a2⟩; exact ⟨m, by rw [List.getElem?_map, a1]; rfl, a2⟩
    · rintro s ⟨m, m', o, r', a1, a2, a3, a4⟩
      exact ⟨m, m', .inl o, r', by rw [List.getElem?_map, a1]; rfl, a2, a3, by rw [List.getElem?_map, a4]; rfl⟩

omit [DecidableEq V] in
/-- A `Clear`. -/
theorem Part.clear (h2 : Hst v H n W Hp cl) {w : Nat} (hw : w < n) (s₀ : MapConc.M K V) :
    Part H n W cl (2 * w + 1) (2 * w + 1) s₀ [(cl w, some (.inr .clear), .unit)] (fun m => if m = 0 then s₀ else fun _ => none) := by
  have hi : Ev.inv (cl w) (.inr .clear) ∈ H := by
    obtain ⟨⟨y, hy, _⟩, _⟩ := h2.clear w hw
    exact (h2.inv _ _).2 ⟨y, hy⟩
  refine ⟨by simp, by simp, ?_, by simp, ?_, ?_, ?_, ?_, ?_⟩
  · intro m i o r hm
    have hm0 : m = 0 := by
      have := (List.getElem?_eq_some_iff.mp hm).1; simp at this; exact this
    subst hm0
    simp only [List.getElem?_cons_zero, Option.some.injEq, Prod.mk.injEq] at hm
    obtain ⟨rfl, rfl, rfl⟩ := hm
    exact ⟨rfl, by simp⟩
  · intro i o r hx
    rw [List.mem_singleton] at hx
    simp only [Prod.mk.injEq, Option.some.injEq] at hx
    obtain ⟨rfl, rfl, rfl⟩ := hx
    exact hi
  · intro x hx
    rw [List.mem_singleton] at hx
    subst hx
    exact ⟨⟨_, hi⟩, _, Nat.le_refl _, Nat.le_refl _, Or.inr ⟨w, rfl, hw, rfl⟩⟩
  · intro w' i r q1 q2; omega
  · intro w' q1 q2
    have : w' = w := by omega
    subst this; simp
  · intro w' i op r q1 q2; omega

omit [DecidableEq V] in
theorem Part.upto (h1 : Phys M v n W) (h2 : Hst v H n W Hp cl) : ∀ k, k ≤ n → ∃ X st, Part H n W cl 0 (2 * k) (fun _ => none) X st
  | 0, _ => Part.world h1 h2 (Nat.zero_le _)
  | k + 1, hk => by
    obtain ⟨X, st, h⟩ := Part.upto h1 h2 k (by omega)
    have hc := h.append h1 h2 (hi := 2 * k + 1) (by omega) (by omega) (Part.clear h2 (by omega) _)
    obtain ⟨X', st', h'⟩ := Part.world h1 h2 hk
    refine ⟨_, _, hc.append h1 h2 (hi := 2 * (k + 1)) (X₁ := X') (st₁ := st') (by omega) (by omega) ?_⟩
    have e : glue X.length st (fun m => if m = 0 then st X.length else fun _ => none) (X ++ [(cl k, some (Sum.inr ClearOp.clear), Res.unit)]).length = fun _ => none := by
      rw [List.length_append, glue_right]; simp
    rw [e]; exact h'

end

omit [DecidableEq K] [DecidableEq V] in
theorem mem_settled_inv {H : HW K V} {i : Nat} {o : Op K V ⊕ ClearOp} : Ev.inv i o ∈ settled H ↔ Ev.inv i o ∈ H ∧ Ev.ret i .panic ∉ H := by
  classical simp [settled]

omit [DecidableEq K] [DecidableEq V] in
theorem mem_settled_ret {H : HW K V} {i : Nat} {r : Res K V} : Ev.ret i r ∈ settled H ↔ Ev.ret i r ∈ H ∧ Ev.ret i .panic ∉ H := by
  classical simp [settled]

omit [DecidableEq K] [DecidableEq V] in
theorem before_settled {H : HW K V} {a b : Nat} (h : Before (settled H) a b) : Before H a b := by
  classical
  obtain ⟨A, B, r, op, he, hr, hi⟩ := h
  obtain ⟨A', B', rfl, rfl, rfl⟩ := List.filter_eq_append_iff.1 he
  exact ⟨A', B', r, op, rfl, (List.mem_filter.1 hr).1, (List.mem_filter.1 hi).1⟩

omit [DecidableEq V] in
/-- Every execution has a marked linearization, apart from the calls that panicked. -/
theorem rel_marked {M : GW K V} {v : VwW K V} {H : HW K V} (h : Rel M v H) :
    ∃ X st, Marked mapSpecC (fun r => r = .panic) H X st ∧ ∀ i op r, Ev.inv i (.inl op) ∈ H → Ev.ret i r ∈ H → r ≠ .panic → Shows X st i op r := by
  obtain ⟨n, W, Hp, cl, h1, h2, h3⟩ := h
  obtain ⟨X, st, hP⟩ := Part.upto h1 h2 n (Nat.le_refl _)
  -- where a call returned
  have hret : ∀ i r op, Ev.ret i r ∈ H → r ≠ .panic → v i = some (.inl op, .inr r) →
      ∃ w, w ≤ n ∧ Ev.ret i r ∈ (W w).gh.hist ∧ (W w).v i = some (op, .inr r) := by
    intro i r op hr hp hv
    have hc := h1.calls i
    rw [hv] at hc
    rcases hc with ⟨w, c1, c2, _⟩ | ⟨rfl, _⟩
    · exact ⟨w, c1, (h2.wret w c1 i r).2 ⟨hr, _, c2⟩, c2⟩
    · exact absurd rfl hp
  refine ⟨X, st, ⟨hP.once, hP.inv, ?_, ?_, hP.init, hP.legal, hP.order⟩, ?_⟩
  · intro x hx
    obtain ⟨hi, p, _, hp, hpl⟩ := hP.mem x hx
    refine ⟨hi, ?_⟩
    rintro _ rfl hr
    obtain ⟨o, hv⟩ := h2.ret _ _ hr
    rcases hpl with ⟨w, rfl, hw, op, y, hy, hy'⟩ | ⟨w, rfl, hw, hc⟩
    · obtain ⟨z, hz⟩ := (h1.calls x.1).inl hw hy
      have hc := h1.calls x.1
      rw [hv] at hz
      simp only [Option.some.injEq, Prod.mk.injEq] at hz
      obtain ⟨rfl, rfl⟩ := hz
      rw [hv] at hc
      rcases hc with ⟨u, c1, c2, _⟩ | ⟨_, hn⟩
      · exact (h1.ok u c1).calm _ _ c2
      · have := hn w hw; rw [hy] at this; simp at this
    · obtain ⟨⟨y, hy, _⟩, _⟩ := h2.clear w hw
      rw [hc, hv] at hy
      simp only [Option.some.injEq, Prod.mk.injEq] at hy
      rw [hy.1] at hv
      have := h2.unit _ _ _ hv
      simp at this
  · intro i r hr hp
    obtain ⟨o, hv⟩ := h2.ret i r hr
    cases o with
    | inl op =>
      obtain ⟨w, hw, hr', _⟩ := hret i r op hr hp hv
      exact hP.ret w i r (Nat.zero_le _) (by omega) hr'
    | inr o =>
      obtain ⟨w, hw, rfl⟩ := h2.all i o _ hv trivial
      rw [h2.unit _ _ _ hv]
      exact ⟨_, hP.clr w (Nat.zero_le _) (by omega)⟩
  · intro i op r hi hr hp
    have hv : v i = some (.inl op, .inr r) := by
      obtain ⟨o, hv⟩ := h2.ret i r hr
      obtain ⟨x, hx⟩ := (h2.inv _ _).1 hi
      rw [hv] at hx ⊢
      simp only [Option.some.injEq, Prod.mk.injEq] at hx
      rw [hx.1]
    obtain ⟨w, hw, hr', hv'⟩ := hret i r op hr hp hv
    exact hP.obs w i op r (Nat.zero_le _) (by omega) hr' hv'

omit [DecidableEq V] in
/-- Every execution has a linearization, apart from the calls that panicked. -/
theorem rel_linearization {M : GW K V} {v : VwW K V} {H : HW K V} (h : Rel M v H) :
    ∃ L st, Linearization mapSpecC (settled H) L st ∧ Observes Sees (settled H) L st := by
  obtain ⟨X, st, hX, hO⟩ := rel_marked h
  obtain ⟨L, st', hL, hd⟩ := hX.linearization
  have hset : ∀ i r, Ev.ret i r ∈ settled H → r ≠ .panic := by
    rintro i _ hr rfl
    exact (mem_settled_ret.1 hr).2 (mem_settled_ret.1 hr).1
  refine ⟨L, st', ⟨hL.once, ?_, ?_, hL.init, hL.legal, ?_⟩, ?_⟩
  · exact fun x hx => mem_settled_inv.2 ⟨hL.invoked x hx, hL.good x hx _ rfl⟩
  · exact fun i r hr => hL.returned i r (mem_settled_ret.1 hr).1 (hset i r hr)
  · exact hL.order.imp fun h hb => h (before_settled hb)
  · intro i op r hi hr
    have hdur : ∀ m, During H L i m → During (settled H) L i m := fun m h =>
      ⟨h.1, fun m' x hx hlt hb => h.2.1 m' x hx hlt (before_settled hb), fun m' x hx hle hb => h.2.2 m' x hx hle (before_settled hb)⟩
    refine sees_mono _ _ _ _ _ _ ?_ ?_ (hO i op r (mem_settled_inv.1 hi).1 (mem_settled_ret.1 hr).1 (hset i r hr))
    · rintro s ⟨m, a1, rfl⟩
      obtain ⟨n', b1, b2, _⟩ := hd m i r a1
      exact ⟨n', hdur n' b1, b2⟩
    · rintro s ⟨m, m', o, r', a1, rfl, a3, a4⟩
      obtain ⟨n', b1, b2, b3⟩ := hd m i r a1
      obtain ⟨k, b4, b5⟩ := b3 m' i o r' a4 a3
      exact ⟨n', k, o, r', hdur n' b1, b2, b5, b4⟩

end Verif.XSync.MapWords

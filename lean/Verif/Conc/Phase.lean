import Verif.Conc.Obs
/-!
# Programs with operations that are called while nothing else runs

`P.withX` is the program `P` with additional operations `X`. A history is *exclusive* if the calls of these operations overlap no other call.
If all executions of `P` from the states that the additional operations leave behind are linearizable, then all exclusive histories of
`P.withX` are.
-/
namespace Verif.Conc

variable {σ G Op Res S X T : Type}

/-- The program with additional operations. -/
def Prog.withX (P : Prog G Op Res S) (xb : X → T) (xs : G → Nat → X → T → Nat → Option (G × (T ⊕ Res))) : Prog G (Op ⊕ X) Res (S ⊕ T) where
  init := P.init
  begin o := match o with
    | .inl op => .inl (P.begin op)
    | .inr x => .inr (xb x)
  step g i o s c := match o, s with
    | .inl op, .inl s => match P.step g i op s c with
      | none => none
      | some (g', .inl s') => some (g', .inl (.inl s'))
      | some (g', .inr r) => some (g', .inr r)
    | .inr x, .inr t => match xs g i x t c with
      | none => none
      | some (g', .inl t') => some (g', .inl (.inr t'))
      | some (g', .inr r) => some (g', .inr r)
    | _, _ => none

/-- The specification with additional operations. -/
def Spec.withX (Sp : Spec σ Op Res) (XS : σ → X → Res → σ → Prop) : Spec σ (Op ⊕ X) Res where
  init := Sp.init
  step s o r s' := match o with
    | .inl op => Sp.step s op r s'
    | .inr x => XS s x r s'

/-- No call overlaps a call of an additional operation. -/
def Exclusive (H : List (Ev (Op ⊕ X) Res)) : Prop :=
  ∀ i x j o, Ev.inv i (.inr x) ∈ H → Ev.inv j o ∈ H → j ≠ i → Before H i j ∨ Before H j i

/-! ## Histories one after the other -/

/-- Call `i` has been made. -/
def HasInv (H : List (Ev Op Res)) (i : Nat) : Prop := ∃ op, Ev.inv i op ∈ H
/-- Call `i` has returned. -/
def HasRet (H : List (Ev Op Res)) (i : Nat) : Prop := ∃ r, Ev.ret i r ∈ H

theorem before_left {H₀ H₁ : List (Ev Op Res)} {a b : Nat} (h : Before (H₀ ++ H₁) a b) (hb : ¬ HasInv H₁ b) : Before H₀ a b := by
  obtain ⟨A, B, r, op, he, hr, hi⟩ := h
  rcases List.append_eq_append_iff.mp he with ⟨C, rfl, rfl⟩ | ⟨C, rfl, rfl⟩
  · exact absurd ⟨op, List.mem_append_right _ hi⟩ hb
  · rw [List.mem_append] at hi
    rcases hi with hi | hi
    · exact ⟨A, C, r, op, rfl, hr, hi⟩
    · exact absurd ⟨op, hi⟩ hb

theorem before_right {H₀ H₁ : List (Ev Op Res)} {a b : Nat} (h : Before (H₀ ++ H₁) a b) (ha : ¬ HasRet H₀ a) : Before H₁ a b := by
  obtain ⟨A, B, r, op, he, hr, hi⟩ := h
  rcases List.append_eq_append_iff.mp he with ⟨C, rfl, rfl⟩ | ⟨C, rfl, rfl⟩
  · rw [List.mem_append] at hr
    rcases hr with hr | hr
    · exact absurd ⟨r, hr⟩ ha
    · exact ⟨C, B, r, op, rfl, hr, hi⟩
  · exact absurd ⟨r, List.mem_append_left _ hr⟩ ha

theorem before_cross {H₀ H₁ : List (Ev Op Res)} {a b : Nat} (ha : ¬ HasRet H₀ a) (hb : ¬ HasInv H₁ b) : ¬ Before (H₀ ++ H₁) a b := by
  intro h
  obtain ⟨⟨r, hr⟩, _⟩ := before_mem (before_left h hb)
  exact ha ⟨r, hr⟩

/-- The calls of the two histories are different ones. -/
def Apart (H₀ H₁ : List (Ev Op Res)) : Prop := ∀ i, HasInv H₀ i → HasInv H₁ i → False

/-- Only calls that were made return. -/
def Made (H : List (Ev Op Res)) : Prop := ∀ i, HasRet H i → HasInv H i

/-- Proof only: two sequences, one after the other. -/
def glue (n : Nat) (st₀ st₁ : Nat → σ) : Nat → σ := fun k => if k < n then st₀ k else st₁ (k - n)

section
variable {Sp : Spec σ Op Res} {H₀ H₁ : List (Ev Op Res)} {L₀ L₁ : List (Nat × Op × Res)} {st₀ st₁ : Nat → σ}

theorem glue_left {n k : Nat} (h : st₁ 0 = st₀ n) (hk : k ≤ n) : glue n st₀ st₁ k = st₀ k := by
  unfold glue
  split
  · rfl
  · have : k = n := by omega
    subst this; simpa using h

theorem glue_right {n k : Nat} : glue n st₀ st₁ (n + k) = st₁ k := by
  unfold glue
  rw [if_neg (by omega)]
  congr 1; omega

theorem Linearization.append (h0 : Linearization Sp H₀ L₀ st₀) (h1 : Linearization ⟨st₀ L₀.length, Sp.step⟩ H₁ L₁ st₁) (hd : Apart H₀ H₁)
    (hm : Made H₀) : Linearization Sp (H₀ ++ H₁) (L₀ ++ L₁) (glue L₀.length st₀ st₁) := by
  have i0 : ∀ x ∈ L₀, HasInv H₀ x.1 := fun x hx => ⟨_, h0.invoked x hx⟩
  have i1 : ∀ x ∈ L₁, HasInv H₁ x.1 := fun x hx => ⟨_, h1.invoked x hx⟩
  refine ⟨?_, ?_, ?_, ?_, ?_, ?_⟩
  · rw [List.map_append, List.nodup_append]
    refine ⟨h0.once, h1.once, ?_⟩
    intro a ha b hb hab
    rw [List.mem_map] at ha hb
    obtain ⟨x, hx, rfl⟩ := ha
    obtain ⟨y, hy, rfl⟩ := hb
    exact hd x.1 (i0 x hx) (hab ▸ i1 y hy)
  · intro x hx
    rw [List.mem_append] at hx ⊢
    exact hx.imp (h0.invoked x) (h1.invoked x)
  · intro i r hr
    rw [List.mem_append] at hr
    rcases hr with hr | hr
    · obtain ⟨op, h⟩ := h0.returned i r hr; exact ⟨op, List.mem_append_left _ h⟩
    · obtain ⟨op, h⟩ := h1.returned i r hr; exact ⟨op, List.mem_append_right _ h⟩
  · rw [glue_left h1.init (Nat.zero_le _)]; exact h0.init
  · intro n i op r hn
    by_cases hlt : n < L₀.length
    · rw [List.getElem?_append_left hlt] at hn
      rw [glue_left h1.init (by omega), glue_left h1.init (by omega)]
      exact h0.legal n i op r hn
    · obtain ⟨k, rfl⟩ : ∃ k, n = L₀.length + k := ⟨n - L₀.length, by omega⟩
      rw [List.getElem?_append_right (by omega), Nat.add_sub_cancel_left] at hn
      rw [Nat.add_assoc, glue_right, glue_right]
      exact h1.legal k i op r hn
  · rw [List.pairwise_append]
    refine ⟨?_, ?_, ?_⟩
    · refine List.Pairwise.imp_of_mem ?_ h0.order
      intro x y hx _ h hb
      exact h (before_left hb (fun h => hd _ (i0 x hx) h))
    · refine List.Pairwise.imp_of_mem ?_ h1.order
      intro x y _ hy h hb
      exact h (before_right hb (fun h => hd _ (hm _ h) (i1 y hy)))
    · intro x hx y hy
      exact before_cross (fun h => hd _ (hm _ h) (i1 y hy)) (fun h => hd _ (i0 x hx) h)

theorem During.left (h0 : ∀ x ∈ L₀, HasInv H₀ x.1) (hL : ∀ x ∈ L₁, HasInv H₁ x.1) (hd : Apart H₀ H₁) (hm : Made H₀)
    {i n : Nat} (hi : HasInv H₀ i) (h : During H₀ L₀ i n) : During (H₀ ++ H₁) (L₀ ++ L₁) i n := by
  obtain ⟨h1, h2, h3⟩ := h
  refine ⟨by rw [List.length_append]; omega, ?_, ?_⟩
  · intro m x hx hlt hb
    rw [List.getElem?_append_left (by omega)] at hx
    exact h2 m x hx hlt (before_left hb (fun h => hd _ (h0 x (List.mem_of_getElem? hx)) h))
  · intro m x hx hle hb
    by_cases hlt : m < L₀.length
    · rw [List.getElem?_append_left hlt] at hx
      exact h3 m x hx hle (before_left hb (fun h => hd _ hi h))
    · rw [List.getElem?_append_right (by omega)] at hx
      exact before_cross (fun h => hd _ (hm _ h) (hL x (List.mem_of_getElem? hx))) (fun h => hd _ hi h) hb

theorem During.right (h0 : ∀ x ∈ L₀, HasInv H₀ x.1) (hL : ∀ x ∈ L₁, HasInv H₁ x.1) (hd : Apart H₀ H₁) (hm : Made H₀)
    {i n : Nat} (hi : HasInv H₁ i) (h : During H₁ L₁ i n) : During (H₀ ++ H₁) (L₀ ++ L₁) i (L₀.length + n) := by
  obtain ⟨h1, h2, h3⟩ := h
  refine ⟨by rw [List.length_append]; omega, ?_, ?_⟩
  · intro m x hx hlt hb
    by_cases hl : m < L₀.length
    · rw [List.getElem?_append_left hl] at hx
      exact before_cross (fun h => hd _ (hm _ h) hi) (fun h => hd _ (h0 x (List.mem_of_getElem? hx)) h) hb
    · rw [List.getElem?_append_right (by omega)] at hx
      exact h2 _ x hx (by omega) (before_right hb (fun h => hd _ (hm _ h) hi))
  · intro m x hx hle hb
    rw [List.getElem?_append_right (by omega)] at hx
    exact h3 _ x hx (by omega) (before_right hb (fun h => hd _ (hm _ h) (hL x (List.mem_of_getElem? hx))))

end

/-- What the results of calls say about the states during the calls: `R op r saw pre`, where `saw s` says that `s` was there during the
call and `pre s` that it was there before the call took effect. -/
def Observes (R : Op → Res → (σ → Prop) → (σ → Prop) → Prop) (H : List (Ev (Op ⊕ X) Res)) (L : List (Nat × (Op ⊕ X) × Res)) (st : Nat → σ) : Prop :=
  ∀ i op r, Ev.inv i (.inl op) ∈ H → Ev.ret i r ∈ H →
    R op r (fun s => ∃ n, During H L i n ∧ st n = s) (fun s => ∃ n n' o r', During H L i n ∧ st n = s ∧ n ≤ n' ∧ L[n']? = some (i, o, r'))

theorem Observes.append {R : Op → Res → (σ → Prop) → (σ → Prop) → Prop}
    (hR : ∀ op r a b a' b', (∀ s, a s → a' s) → (∀ s, b s → b' s) → R op r a b → R op r a' b')
    {Sp : Spec σ (Op ⊕ X) Res} {H₀ H₁ : List (Ev (Op ⊕ X) Res)} {L₀ L₁ : List (Nat × (Op ⊕ X) × Res)} {st₀ st₁ : Nat → σ}
    (h0 : Linearization Sp H₀ L₀ st₀) (h1 : Linearization ⟨st₀ L₀.length, Sp.step⟩ H₁ L₁ st₁) (hd : Apart H₀ H₁)
    (hm : Made H₀) (hm1 : Made H₁) (o0 : Observes R H₀ L₀ st₀) (o1 : Observes R H₁ L₁ st₁) :
    Observes R (H₀ ++ H₁) (L₀ ++ L₁) (glue L₀.length st₀ st₁) := by
  intro i op r hi hr
  have i0 : ∀ x ∈ L₀, HasInv H₀ x.1 := fun x hx => ⟨_, h0.invoked x hx⟩
  have i1 : ∀ x ∈ L₁, HasInv H₁ x.1 := fun x hx => ⟨_, h1.invoked x hx⟩
  rw [List.mem_append] at hi hr
  rcases hi with hi | hi
  · have hr : Ev.ret i r ∈ H₀ := hr.elim id (fun h => (hd i ⟨_, hi⟩ (hm1 i ⟨_, h⟩)).elim)
    refine hR _ _ _ _ _ _ ?_ ?_ (o0 i op r hi hr)
    · rintro s ⟨n, a1, a2⟩
      exact ⟨n, a1.left i0 i1 hd hm ⟨_, hi⟩, by rw [glue_left h1.init a1.1]; exact a2⟩
    · rintro s ⟨n, n', o, r', a1, a2, a3, a4⟩
      refine ⟨n, n', o, r', a1.left i0 i1 hd hm ⟨_, hi⟩, by rw [glue_left h1.init a1.1]; exact a2, a3, ?_⟩
      rw [List.getElem?_append_left (List.getElem?_eq_some_iff.mp a4).1]; exact a4
  · have hr : Ev.ret i r ∈ H₁ := hr.elim (fun h => (hd i (hm i ⟨_, h⟩) ⟨_, hi⟩).elim) id
    refine hR _ _ _ _ _ _ ?_ ?_ (o1 i op r hi hr)
    · rintro s ⟨n, a1, a2⟩
      exact ⟨_, a1.right i0 i1 hd hm ⟨_, hi⟩, by rw [glue_right]; exact a2⟩
    · rintro s ⟨n, n', o, r', a1, a2, a3, a4⟩
      refine ⟨_, L₀.length + n', o, r', a1.right i0 i1 hd hm ⟨_, hi⟩, by rw [glue_right]; exact a2, by omega, ?_⟩
      rw [List.getElem?_append_right (by omega), Nat.add_sub_cancel_left]; exact a4

/-! ## Histories of the program without the additional operations -/

/-- Proof only: an event of a program as one of a program with more operations. -/
def liftE : Ev Op Res → Ev (Op ⊕ X) Res
  | .inv i op => .inv i (.inl op)
  | .ret i r => .ret i r

/-- Proof only: an entry of the log likewise. -/
def liftL (x : Nat × Op × Res) : Nat × (Op ⊕ X) × Res := (x.1, .inl x.2.1, x.2.2)

theorem mem_liftE_inv {H : List (Ev Op Res)} {i : Nat} {o : Op ⊕ X} : Ev.inv i o ∈ H.map liftE ↔ ∃ op, o = .inl op ∧ Ev.inv i op ∈ H := by
  rw [List.mem_map]
  constructor
  · rintro ⟨e, he, h⟩
    cases e with
    | inv j op => simp only [liftE, Ev.inv.injEq] at h; obtain ⟨rfl, rfl⟩ := h; exact ⟨op, rfl, he⟩
    | ret => simp [liftE] at h
  · rintro ⟨op, rfl, h⟩; exact ⟨_, h, rfl⟩

theorem mem_liftE_ret {H : List (Ev Op Res)} {i : Nat} {r : Res} : (Ev.ret i r : Ev (Op ⊕ X) Res) ∈ H.map liftE ↔ Ev.ret i r ∈ H := by
  rw [List.mem_map]
  constructor
  · rintro ⟨e, he, h⟩
    cases e with
    | inv => simp [liftE] at h
    | ret j r' => simp only [liftE, Ev.ret.injEq] at h; obtain ⟨rfl, rfl⟩ := h; exact he
  · intro h; exact ⟨_, h, rfl⟩

theorem before_liftE {H : List (Ev Op Res)} {a b : Nat} : Before (H.map (liftE (X := X))) a b ↔ Before H a b := by
  constructor
  · rintro ⟨A, B, r, op, he, hr, hi⟩
    obtain ⟨A', B', rfl, rfl, rfl⟩ := List.map_eq_append_iff.mp he
    obtain ⟨op', rfl, hi'⟩ := mem_liftE_inv.mp hi
    exact ⟨A', B', r, op', rfl, mem_liftE_ret.mp hr, hi'⟩
  · rintro ⟨A, B, r, op, rfl, hr, hi⟩
    exact ⟨A.map liftE, B.map liftE, r, .inl op, by simp, mem_liftE_ret.mpr hr, mem_liftE_inv.mpr ⟨_, rfl, hi⟩⟩

theorem getElem?_liftL {L : List (Nat × Op × Res)} {n i : Nat} {o : Op ⊕ X} {r : Res} :
    (L.map liftL)[n]? = some (i, o, r) ↔ ∃ op, o = .inl op ∧ L[n]? = some (i, op, r) := by
  rw [List.getElem?_map]
  cases h : L[n]? with
  | none => simp
  | some x =>
    obtain ⟨j, op, r'⟩ := x
    simp only [liftL, Option.map_some, Option.some.injEq, Prod.mk.injEq]
    constructor
    · rintro ⟨rfl, rfl, rfl⟩; exact ⟨op, rfl, rfl, rfl, rfl⟩
    · rintro ⟨op, rfl, rfl, rfl, rfl⟩; exact ⟨rfl, rfl, rfl⟩

theorem during_liftL {H : List (Ev Op Res)} {L : List (Nat × Op × Res)} {i n : Nat} :
    During (H.map (liftE (X := X))) (L.map (liftL (X := X))) i n ↔ During H L i n := by
  unfold During
  simp only [List.length_map, before_liftE]
  refine and_congr Iff.rfl (and_congr ?_ ?_)
  all_goals
    constructor
    · intro h m x hx hlt
      exact h m (liftL x) (by rw [List.getElem?_map, hx]; rfl) hlt
    · rintro h m ⟨j, o, r⟩ hx hlt
      obtain ⟨op, rfl, hx'⟩ := getElem?_liftL.mp hx
      exact h m _ hx' hlt

theorem Linearization.lift {Sp : Spec σ Op Res} {XS : σ → X → Res → σ → Prop} {H : List (Ev Op Res)} {L : List (Nat × Op × Res)} {st : Nat → σ}
    (h : Linearization Sp H L st) : Linearization (Sp.withX XS) (H.map liftE) (L.map liftL) st := by
  refine ⟨?_, ?_, ?_, h.init, ?_, ?_⟩
  · rw [List.map_map]; exact h.once
  · intro x hx
    rw [List.mem_map] at hx
    obtain ⟨y, hy, rfl⟩ := hx
    exact mem_liftE_inv.mpr ⟨_, rfl, h.invoked y hy⟩
  · intro i r hr
    obtain ⟨op, ho⟩ := h.returned i r (mem_liftE_ret.mp hr)
    exact ⟨.inl op, List.mem_map.mpr ⟨_, ho, rfl⟩⟩
  · intro n i o r hn
    obtain ⟨op, rfl, hn'⟩ := getElem?_liftL.mp hn
    exact h.legal n i op r hn'
  · rw [List.pairwise_map]
    exact h.order.imp (fun {x y} h hb => h (before_liftE.mp hb))

/-! ## Phases -/

/-- The additional operation `x` runs alone, from `g`. -/
inductive XRun (xb : X → T) (xs : G → Nat → X → T → Nat → Option (G × (T ⊕ Res))) (g : G) (i : Nat) (x : X) : G → T ⊕ Res → Prop where
  | start : XRun xb xs g i x g (.inl (xb x))
  | step {g' g'' : G} {t : T} {c : Nat} {y : T ⊕ Res} : XRun xb xs g i x g' (.inl t) → xs g' i x t c = some (g'', y) → XRun xb xs g i x g'' y

/-- Proof only: the state of a call likewise. -/
def Proc.liftX : Proc Op Res S → Proc (Op ⊕ X) Res (S ⊕ T)
  | .idle => .idle
  | .at op s => .at (.inl op) (.inl s)
  | .ret op r => .ret (.inl op) r
  | .done op r => .done (.inl op) r

/-- No call is running. -/
def Conf.Quiet (m : Conf G Op Res S) : Prop := ∀ j, m.pc j = .idle ∨ ∃ op r, m.pc j = .done op r

theorem Prog.mem_done (P : Prog G Op Res S) {m : Conf G Op Res S} {H : List (Ev Op Res)} (h : P.mach.Exec m H) :
    ∀ i r, Ev.ret i r ∈ H → ∃ op, m.pc i = .done op r := by
  induction h with
  | init => simp
  | @tau m m' H _ hs ih =>
    intro i r hr
    obtain ⟨op, hd⟩ := ih i r hr
    refine ⟨op, ?_⟩
    cases hs with
    | run j c _ _ he =>
      simp only [Prog.mach] at he
      have hij : i ≠ j := by rintro rfl; rw [hd] at he; simp at he
      split at he
      · simp at he
      · split at he <;> simp only [Option.some.injEq, Prod.mk.injEq, reduceCtorEq] at he
        all_goals
          obtain ⟨_, rfl⟩ := he
          simpa [upd_ne _ _ hij] using hd
      · simp at he
      · simp at he
  | @ev m m' H e _ hs ih =>
    intro i r hr
    rw [List.mem_append] at hr
    cases hs with
    | inv j op' _ he =>
      simp only [List.mem_singleton, reduceCtorEq, or_false] at hr
      obtain ⟨op, hd⟩ := ih i r hr
      refine ⟨op, ?_⟩
      simp only [Prog.mach] at he
      have hij : i ≠ j := by rintro rfl; rw [hd] at he; simp at he
      split at he
      · simp only [Option.some.injEq] at he
        subst he
        simpa [upd_ne _ _ hij] using hd
      · simp at he
    | run j c _ _ he =>
      simp only [Prog.mach] at he
      split at he
      · simp at he
      · split at he <;> simp at he
      · rename_i op' r' hpc
        simp only [Option.some.injEq, Prod.mk.injEq] at he
        obtain ⟨rfl, rfl⟩ := he
        by_cases hij : i = j
        · subst hij
          rcases hr with hr | hr
          · obtain ⟨op, hd⟩ := ih i r hr
            rw [hpc] at hd; simp at hd
          · simp only [List.mem_singleton, Ev.ret.injEq, true_and] at hr
            subst hr
            exact ⟨op', by simp⟩
        · rcases hr with hr | hr
          · obtain ⟨op, hd⟩ := ih i r hr
            exact ⟨op, by simpa [upd_ne _ _ hij] using hd⟩
          · simp only [List.mem_singleton, Ev.ret.injEq] at hr
            exact absurd hr.1 hij
      · simp at he

theorem made_exec {P : Prog G Op Res S} {m : Conf G Op Res S} {H : List (Ev Op Res)} (h : P.mach.Exec m H) : Made H := by
  rintro i ⟨r, hr⟩
  obtain ⟨op, ho⟩ := (P.hist h).2 i r hr
  exact ⟨op, ((P.hist h).1 i op).mpr ⟨_, ho⟩⟩

theorem made_lift {H : List (Ev Op Res)} (h : Made H) : Made (H.map (liftE (X := X))) := by
  rintro i ⟨r, hr⟩
  obtain ⟨op, ho⟩ := h i ⟨r, mem_liftE_ret.mp hr⟩
  exact ⟨_, mem_liftE_inv.mpr ⟨_, rfl, ho⟩⟩

theorem made_append {H₀ H₁ : List (Ev Op Res)} (h0 : Made H₀) (h1 : Made H₁) : Made (H₀ ++ H₁) := by
  rintro i ⟨r, hr⟩
  rw [List.mem_append] at hr
  rcases hr with hr | hr
  · obtain ⟨o, h⟩ := h0 i ⟨r, hr⟩; exact ⟨o, List.mem_append_left _ h⟩
  · obtain ⟨o, h⟩ := h1 i ⟨r, hr⟩; exact ⟨o, List.mem_append_right _ h⟩

section
variable (P : Prog G Op Res S) (xb : X → T) (xs : G → Nat → X → T → Nat → Option (G × (T ⊕ Res)))
  (Ex : σ → List (Ev (Op ⊕ X) Res) → σ → Prop) (abs : G → σ) (Ok : G → Prop)

/-- `Ex s H s'` says how the history `H`, which starts with the contents `s` and ends with `s'`, is explained. Explanations can be put together. -/
structure Explaining (Ex : σ → List (Ev (Op ⊕ X) Res) → σ → Prop) : Prop where
  nil : ∀ s, Ex s [] s
  append : ∀ s A s₁ B s₂, Ex s A s₁ → Ex s₁ B s₂ → Apart A B → Made A → Made B → Ex s (A ++ B) s₂
  pending : ∀ s i x, Ex s [.inv i (.inr x)] s

/-- The earlier phases: a complete history with an explanation that leads to the contents of `g₀`. -/
structure Past (m : Conf G (Op ⊕ X) Res (S ⊕ T)) (H₀ : List (Ev (Op ⊕ X) Res)) (g₀ : G) : Prop where
  ok : Ok g₀
  made : Made H₀
  done : ∀ j, HasInv H₀ j → ∃ o r, m.pc j = .done o r
  lin : Ex (abs P.init) H₀ (abs g₀)

/-- The present phase. -/
structure Now (m : Conf G (Op ⊕ X) Res (S ⊕ T)) (H₀ : List (Ev (Op ⊕ X) Res)) (g₀ : G) (H₁ : List (Ev Op Res)) (m₁ : Conf G Op Res S)
    (i? : Option Nat) : Prop where
  past : Past P Ex abs Ok m H₀ g₀
  exec : (P.from g₀).mach.Exec m₁ H₁
  old : ∀ j, HasInv H₀ j → m₁.pc j = .idle
  new : ∀ j, ¬ HasInv H₀ j → i? ≠ some j → m.pc j = (m₁.pc j).liftX

/-- Proof only: invariant of a program with a phase in which one call is alone. -/
inductive PInv (m : Conf G (Op ⊕ X) Res (S ⊕ T)) (H : List (Ev (Op ⊕ X) Res)) : Prop where
  /-- no additional operation is running -/
  | normal (H₀ : List (Ev (Op ⊕ X) Res)) (g₀ : G) (H₁ : List (Ev Op Res)) (m₁ : Conf G Op Res S) : Now P Ex abs Ok m H₀ g₀ H₁ m₁ none →
      m.g = m₁.g → H = H₀ ++ H₁.map liftE → PInv m H
  /-- an additional operation is running, and nothing else -/
  | alone (H₀ : List (Ev (Op ⊕ X) Res)) (g₀ : G) (H₁ : List (Ev Op Res)) (m₁ : Conf G Op Res S) (i : Nat) (x : X) (y : T ⊕ Res) :
      Now P Ex abs Ok m H₀ g₀ H₁ m₁ (some i) → m₁.Quiet → ¬ HasInv H₀ i → m₁.pc i = .idle → XRun xb xs m₁.g i x m.g y →
      (match y with | .inl t => m.pc i = .at (.inr x) (.inr t) | .inr r => m.pc i = .ret (.inr x) r) →
      H = H₀ ++ H₁.map liftE ++ [.inv i (.inr x)] → PInv m H

variable {P xb xs Ex abs Ok}

variable {m : Conf G (Op ⊕ X) Res (S ⊕ T)} {H H₀ : List (Ev (Op ⊕ X) Res)} {g₀ : G} {H₁ : List (Ev Op Res)} {m₁ : Conf G Op Res S} {i? : Option Nat}

theorem Now.apart (h : Now P Ex abs Ok m H₀ g₀ H₁ m₁ i?) : Apart H₀ (H₁.map liftE) := by
  rintro i h0 ⟨o, ho⟩
  obtain ⟨op, rfl, ho'⟩ := mem_liftE_inv.mp ho
  obtain ⟨x, hx⟩ := (((P.from g₀).hist h.exec).1 i op).mp ho'
  simp [Conf.view, h.old i h0, Proc.view] at hx

/-- The past and the present phase together. -/
theorem Now.lin (hE : Explaining Ex) (hlin : ∀ g₀ m₁ H₁, Ok g₀ → (P.from g₀).mach.Exec m₁ H₁ → ∃ s, Ex (abs g₀) (H₁.map liftE) s)
    (h : Now P Ex abs Ok m H₀ g₀ H₁ m₁ i?) : Made (H₀ ++ H₁.map liftE) ∧ ∃ s, Ex (abs P.init) (H₀ ++ H₁.map liftE) s := by
  obtain ⟨s, hs⟩ := hlin g₀ m₁ H₁ h.past.ok h.exec
  have hm := made_lift (X := X) (made_exec h.exec)
  exact ⟨made_append h.past.made hm, s, hE.append _ _ _ _ _ h.past.lin hs h.apart h.past.made hm⟩

theorem exclusive_prefix {e : Ev (Op ⊕ X) Res} (h : Exclusive (H ++ [e])) (he : ∀ j o, e = .inv j o → ¬ HasInv H j) : Exclusive H := by
  intro i x j o hi hj hne
  rcases h i x j o (List.mem_append_left _ hi) (List.mem_append_left _ hj) hne with h | h
  · rcases before_append h with h | ⟨op, r, h, _⟩
    · exact Or.inl h
    · exact absurd ⟨o, hj⟩ (he _ _ h)
  · rcases before_append h with h | ⟨op, r, h, _⟩
    · exact Or.inr h
    · exact absurd ⟨_, hi⟩ (he _ _ h)

/-- Every step of an exclusive execution keeps the phases. -/
theorem pinv (hEx : Explaining Ex) (hok : Ok P.init)
    (hlin : ∀ g₀ m₁ H₁, Ok g₀ → (P.from g₀).mach.Exec m₁ H₁ → ∃ s, Ex (abs g₀) (H₁.map liftE) s)
    (hx : ∀ g₀ m₁ H₁ i x g' r, Ok g₀ → (P.from g₀).mach.Exec m₁ H₁ → m₁.Quiet → XRun xb xs m₁.g i x g' (.inr r) →
      Ok g' ∧ ∀ s, Ex s [.inv i (.inr x), .ret i r] (abs g'))
    (h : (P.withX xb xs).mach.Exec m H) : Exclusive H → PInv P xb xs Ex abs Ok m H := by
  induction h with
  | init =>
    intro _
    refine .normal [] P.init [] ⟨P.init, fun _ => .idle⟩ ⟨⟨hok, ?_, ?_, hEx.nil _⟩, .init, ?_, ?_⟩ rfl rfl
    · rintro i ⟨r, hr⟩; simp at hr
    · rintro i ⟨r, hr⟩; simp at hr
    · rintro i ⟨r, hr⟩; simp at hr
    · intro j _ _; rfl
  | @tau m m' H hE hs ih =>
    intro hex
    cases hs with
    | run j c _ _ he =>
      cases ih hex with
      | normal H₀ g₀ H₁ m₁ hN hg hH =>
        simp only [Prog.mach] at he
        split at he
        · simp at he
        · rename_i o s hpc
          have hj : ¬ HasInv H₀ j := by
            intro hj; obtain ⟨_, _, hd⟩ := hN.past.done j hj; rw [hpc] at hd; simp at hd
          have hl := hN.new j hj (by simp)
          rw [hpc] at hl
          cases hp : m₁.pc j with
          | «at» op s₁ =>
            simp only [hp, Proc.liftX, Proc.at.injEq] at hl
            obtain ⟨rfl, rfl⟩ := hl
            simp only [Prog.withX, hg] at he
            cases hst : P.step m₁.g j op s₁ c with
            | none => simp [hst] at he
            | some y =>
              obtain ⟨g', y⟩ := y
              have key : ∀ p : Proc Op Res S, m' = ⟨g', upd m.pc j p.liftX⟩ → (P.from g₀).mach.next m₁ j c = some (none, ⟨g', upd m₁.pc j p⟩) →
                  PInv P xb xs Ex abs Ok m' H := by
                rintro p rfl hn
                refine .normal H₀ g₀ H₁ ⟨g', upd m₁.pc j p⟩ ⟨⟨hN.past.ok, hN.past.made, ?_, hN.past.lin⟩, .tau hN.exec (.run _ _ _ _ _ hn), ?_, ?_⟩ rfl hH
                · intro k hk
                  have : k ≠ j := by rintro rfl; exact hj hk
                  simpa [upd_ne _ _ this] using hN.past.done k hk
                · intro k hk
                  have : k ≠ j := by rintro rfl; exact hj hk
                  simpa [upd_ne _ _ this] using hN.old k hk
                · intro k hk _
                  by_cases hkj : k = j
                  · subst hkj; simp
                  · simpa [upd_ne _ _ hkj] using hN.new k hk (by simp)
              cases y with
              | inl s' =>
                simp only [hst, Option.some.injEq, Prod.mk.injEq, true_and] at he
                exact key (.at op s') he.symm (by simp [Prog.mach, Prog.from, hp, hst])
              | inr r =>
                simp only [hst, Option.some.injEq, Prod.mk.injEq, true_and] at he
                exact key (.ret op r) he.symm (by simp [Prog.mach, Prog.from, hp, hst])
          | _ => simp [hp, Proc.liftX] at hl
        · simp at he
        · simp at he
      | alone H₀ g₀ H₁ m₁ i x y hN hq hi hidle hrun hpi hH =>
        have hother : j ≠ i → m.pc j = .idle ∨ ∃ o r, m.pc j = .done o r := by
          intro hne
          by_cases hj : HasInv H₀ j
          · exact Or.inr (hN.past.done j hj)
          · rw [hN.new j hj (by simpa using fun h => hne h.symm)]
            rcases hq j with h | ⟨o, r, h⟩
            · left; rw [h]; rfl
            · right; exact ⟨.inl o, r, by rw [h]; rfl⟩
        simp only [Prog.mach] at he
        by_cases hji : j = i
        · subst hji
          cases y with
          | inr r => simp only at hpi; simp [hpi] at he
          | inl t =>
            simp only at hpi
            simp only [hpi, Prog.withX] at he
            cases hst : xs m.g j x t c with
            | none => simp [hst] at he
            | some y =>
              obtain ⟨g', y⟩ := y
              have key : ∀ p : Proc (Op ⊕ X) Res (S ⊕ T), m' = ⟨g', upd m.pc j p⟩ →
                  (match y with | .inl t => p = .at (.inr x) (.inr t) | .inr r => p = .ret (.inr x) r) → PInv P xb xs Ex abs Ok m' H := by
                rintro p rfl hp
                refine .alone H₀ g₀ H₁ m₁ j x y ⟨⟨hN.past.ok, hN.past.made, ?_, hN.past.lin⟩, hN.exec, hN.old, ?_⟩ hq hi hidle (.step hrun hst) ?_ hH
                · intro k hk
                  have : k ≠ j := by rintro rfl; exact hi hk
                  simpa [upd_ne _ _ this] using hN.past.done k hk
                · intro k hk hne
                  have : k ≠ j := by rintro rfl; exact hne rfl
                  simpa [upd_ne _ _ this] using hN.new k hk hne
                · cases y <;> simpa using hp
              cases y with
              | inl t' =>
                simp only [hst, Option.some.injEq, Prod.mk.injEq, true_and] at he
                exact key _ he.symm rfl
              | inr r =>
                simp only [hst, Option.some.injEq, Prod.mk.injEq, true_and] at he
                exact key _ he.symm rfl
        · rcases hother hji with h | ⟨o, r, h⟩ <;> simp [h] at he
  | @ev m m' H e hE hs ih =>
    intro hex
    cases hs with
    | inv j o _ he =>
      simp only [Prog.mach] at he
      split at he
      case h_2 => simp at he
      rename_i hpc
      simp only [Option.some.injEq] at he
      have hnot : ¬ HasInv H j := by
        rintro ⟨o', ho'⟩
        obtain ⟨y, hy⟩ := (((P.withX xb xs).hist hE).1 j o').mp ho'
        simp [Conf.view, hpc, Proc.view] at hy
      have hnoret : ∀ r, Ev.ret j r ∉ H := by
        intro r hr
        obtain ⟨_, hd⟩ := (P.withX xb xs).mem_done hE j r hr
        rw [hpc] at hd; simp at hd
      have hex0 := exclusive_prefix hex (by rintro k o' h; simp only [Ev.inv.injEq] at h; rw [← h.1]; exact hnot)
      cases ih hex0 with
      | normal H₀ g₀ H₁ m₁ hN hg hH =>
        have hj : ¬ HasInv H₀ j := by rintro ⟨o', ho'⟩; exact hnot ⟨o', by rw [hH]; exact List.mem_append_left _ ho'⟩
        have hl := hN.new j hj (by simp)
        rw [hpc] at hl
        have hp : m₁.pc j = .idle := by cases hp : m₁.pc j <;> simp [hp, Proc.liftX] at hl ⊢
        cases o with
        | inl op =>
          subst he
          refine .normal H₀ g₀ (H₁ ++ [.inv j op]) ⟨m₁.g, upd m₁.pc j (.at op (P.begin op))⟩ ⟨⟨hN.past.ok, hN.past.made, ?_, hN.past.lin⟩,
            .ev hN.exec (.inv _ _ _ _ (by simp [Prog.mach, Prog.from, hp])), ?_, ?_⟩ hg (by rw [hH]; simp [liftE])
          · intro k hk
            have : k ≠ j := by rintro rfl; exact hj hk
            simpa [upd_ne _ _ this] using hN.past.done k hk
          · intro k hk
            have : k ≠ j := by rintro rfl; exact hj hk
            simpa [upd_ne _ _ this] using hN.old k hk
          · intro k hk _
            by_cases hkj : k = j
            · subst hkj; simp [Proc.liftX, Prog.withX]
            · simpa [upd_ne _ _ hkj] using hN.new k hk (by simp)
        | inr x =>
          subst he
          refine .alone H₀ g₀ H₁ m₁ j x (.inl (xb x)) ⟨⟨hN.past.ok, hN.past.made, ?_, hN.past.lin⟩, hN.exec, hN.old, ?_⟩ ?_ hj hp ?_ ?_ (by rw [hH])
          · intro k hk
            have : k ≠ j := by rintro rfl; exact hj hk
            simpa [upd_ne _ _ this] using hN.past.done k hk
          · intro k hk hne
            have : k ≠ j := by rintro rfl; exact hne rfl
            simpa [upd_ne _ _ this] using hN.new k hk (by simp)
          · intro k
            by_cases hkj : k = j
            · subst hkj; exact Or.inl hp
            · cases hk : m₁.pc k with
              | idle => exact Or.inl rfl
              | done op r => exact Or.inr ⟨op, r, rfl⟩
              | _ =>
                exfalso
                have hkH : ¬ HasInv H₀ k := by intro h; have := hN.old k h; rw [hk] at this; simp at this
                have hkl := hN.new k hkH (by simp)
                rw [hk] at hkl
                have hkI : ∃ o, Ev.inv k o ∈ H := by
                  have : ∃ o y, m.view k = some (o, y) := by simp [Conf.view, hkl, Proc.liftX, Proc.view]
                  obtain ⟨o, y, h⟩ := this
                  exact ⟨o, (((P.withX xb xs).hist hE).1 k o).mpr ⟨y, h⟩⟩
                obtain ⟨o, ho⟩ := hkI
                have hkR : ∀ r, Ev.ret k r ∉ H := by
                  intro r hr
                  obtain ⟨_, hd⟩ := (P.withX xb xs).mem_done hE k r hr
                  rw [hkl] at hd; simp [Proc.liftX] at hd
                rcases hex j x k o (List.mem_append_right _ (by simp)) (List.mem_append_left _ ho) hkj with h | h
                · obtain ⟨⟨r, hr⟩, _⟩ := before_mem h
                  simp only [List.mem_append, List.mem_singleton, reduceCtorEq, or_false] at hr
                  exact hnoret r hr
                · obtain ⟨⟨r, hr⟩, _⟩ := before_mem h
                  simp only [List.mem_append, List.mem_singleton, reduceCtorEq, or_false] at hr
                  exact hkR r hr
          · show XRun xb xs m₁.g j x m.g _
            rw [hg]; exact .start
          · simp [Prog.withX]
      | alone H₀ g₀ H₁ m₁ i x y hN hq hi hidle hrun hpi hH =>
        exfalso
        have hne : j ≠ i := by
          rintro rfl
          exact hnot ⟨.inr x, by rw [hH]; simp⟩
        have hiR : ∀ r, Ev.ret i r ∉ H := by
          intro r hr
          obtain ⟨_, hd⟩ := (P.withX xb xs).mem_done hE i r hr
          cases y <;> simp only at hpi <;> rw [hpi] at hd <;> simp at hd
        rcases hex i x j o (List.mem_append_left _ (by rw [hH]; simp)) (List.mem_append_right _ (by simp)) hne with h | h
        · obtain ⟨⟨r, hr⟩, _⟩ := before_mem h
          simp only [List.mem_append, List.mem_singleton, reduceCtorEq, or_false] at hr
          exact hiR r hr
        · obtain ⟨⟨r, hr⟩, _⟩ := before_mem h
          simp only [List.mem_append, List.mem_singleton, reduceCtorEq, or_false] at hr
          exact hnoret r hr
    | run j c _ _ he =>
      simp only [Prog.mach] at he
      split at he
      · simp at he
      · split at he <;> simp at he
      case h_4 => simp at he
      rename_i o r hpc
      simp only [Option.some.injEq, Prod.mk.injEq] at he
      obtain ⟨rfl, rfl⟩ := he
      have hex0 := exclusive_prefix hex (by simp)
      cases ih hex0 with
      | normal H₀ g₀ H₁ m₁ hN hg hH =>
        have hj : ¬ HasInv H₀ j := by
          intro hj; obtain ⟨_, _, hd⟩ := hN.past.done j hj; rw [hpc] at hd; simp at hd
        have hl := hN.new j hj (by simp)
        rw [hpc] at hl
        cases hp : m₁.pc j with
        | ret op r₁ =>
          simp only [hp, Proc.liftX, Proc.ret.injEq] at hl
          obtain ⟨rfl, rfl⟩ := hl
          refine .normal H₀ g₀ (H₁ ++ [.ret j r]) ⟨m₁.g, upd m₁.pc j (.done op r)⟩ ⟨⟨hN.past.ok, hN.past.made, ?_, hN.past.lin⟩,
            .ev hN.exec (.run _ j c _ _ (by simp [Prog.mach, Prog.from, hp])), ?_, ?_⟩ hg (by rw [hH]; simp [liftE])
          · intro k hk
            have : k ≠ j := by rintro rfl; exact hj hk
            simpa [upd_ne _ _ this] using hN.past.done k hk
          · intro k hk
            have : k ≠ j := by rintro rfl; exact hj hk
            simpa [upd_ne _ _ this] using hN.old k hk
          · intro k hk _
            by_cases hkj : k = j
            · subst hkj; simp [Proc.liftX]
            · simpa [upd_ne _ _ hkj] using hN.new k hk (by simp)
        | _ => simp [hp, Proc.liftX] at hl
      | alone H₀ g₀ H₁ m₁ i x y hN hq hi hidle hrun hpi hH =>
        have hji : j = i := by
          by_contra hne
          by_cases hj : HasInv H₀ j
          · obtain ⟨_, _, hd⟩ := hN.past.done j hj; rw [hpc] at hd; simp at hd
          · have := hN.new j hj (by simpa using fun h => hne h.symm)
            rw [hpc] at this
            rcases hq j with h | ⟨o, r, h⟩ <;> simp [h, Proc.liftX] at this
        subst hji
        cases y with
        | inl t => simp only at hpi; rw [hpi] at hpc; simp at hpc
        | inr r' =>
          simp only at hpi
          rw [hpi] at hpc
          simp only [Proc.ret.injEq] at hpc
          obtain ⟨rfl, rfl⟩ := hpc
          obtain ⟨hok', hxs⟩ := hx g₀ m₁ H₁ j x m.g r' hN.past.ok hN.exec hq hrun
          obtain ⟨hmade, s, hL⟩ := hN.lin hEx hlin
          have hfresh : ¬ HasInv (H₀ ++ H₁.map liftE) j := by
            rintro ⟨o, ho⟩
            rw [List.mem_append] at ho
            rcases ho with ho | ho
            · exact hi ⟨o, ho⟩
            · obtain ⟨op, rfl, ho'⟩ := mem_liftE_inv.mp ho
              obtain ⟨z, hz⟩ := (((P.from g₀).hist hN.exec).1 j op).mp ho'
              simp [Conf.view, hidle, Proc.view] at hz
          have hap : Apart (H₀ ++ H₁.map liftE) [.inv j (.inr x), .ret j r'] := by
            rintro k hk ⟨o, ho⟩
            simp only [List.mem_cons, Ev.inv.injEq, reduceCtorEq, List.not_mem_nil, or_self, or_false] at ho
            rw [ho.1] at hk
            exact hfresh hk
          have hmx : Made [(Ev.inv j (.inr x) : Ev (Op ⊕ X) Res), .ret j r'] := by
            rintro k ⟨q, hq⟩
            simp only [List.mem_cons, Ev.ret.injEq, reduceCtorEq, List.not_mem_nil, or_false, false_or] at hq
            exact ⟨.inr x, by simp [hq.1]⟩
          refine .normal (H ++ [.ret j r']) m.g [] ⟨m.g, fun _ => .idle⟩ ⟨⟨hok', ?_, ?_, ?_⟩, .init, fun _ _ => rfl, ?_⟩ rfl (by simp)
          · rw [hH, List.append_assoc]
            exact made_append hmade hmx
          · intro k hk
            by_cases hkj : k = j
            · subst hkj; exact ⟨.inr x, r', by simp⟩
            · simp only [upd_ne _ _ hkj]
              obtain ⟨o, ho⟩ := hk
              rw [hH] at ho
              simp only [List.append_assoc, List.mem_append, List.mem_singleton, reduceCtorEq, or_false, Ev.inv.injEq, hkj, false_and] at ho
              by_cases hk0 : HasInv H₀ k
              · exact hN.past.done k hk0
              · rcases ho with ho | ho
                · exact absurd ⟨o, ho⟩ hk0
                · rw [hN.new k hk0 (by simpa using fun h => hkj h.symm)]
                  rcases hq k with h | ⟨o, r, h⟩
                  · obtain ⟨op, rfl, ho'⟩ := mem_liftE_inv.mp ho
                    obtain ⟨z, hz⟩ := (((P.from g₀).hist hN.exec).1 k op).mp ho'
                    simp [Conf.view, h, Proc.view] at hz
                  · exact ⟨.inl o, r, by rw [h]; rfl⟩
          · rw [hH, List.append_assoc]
            exact hEx.append _ _ _ _ _ hL (hxs s) hap hmade hmx
          · intro k hk _
            have hkj : k ≠ j := by rintro rfl; exact hk ⟨.inr x, by rw [hH]; simp⟩
            simp only [upd_ne _ _ hkj, Proc.liftX]
            have hk0 : ¬ HasInv H₀ k := by rintro ⟨o, ho⟩; exact hk ⟨o, by rw [hH]; simp [ho]⟩
            rw [hN.new k hk0 (by simpa using fun h => hkj h.symm)]
            rcases hq k with h | ⟨o, r, h⟩
            · rw [h]; rfl
            · exfalso
              apply hk
              have := (((P.from g₀).hist hN.exec).1 k o).mpr ⟨.inr r, by simp [Conf.view, h, Proc.view]⟩
              exact ⟨.inl o, by rw [hH]; simp only [List.mem_append]; exact Or.inl (Or.inl (Or.inr (mem_liftE_inv.mpr ⟨o, rfl, this⟩)))⟩

/-- Exclusive histories are explained. -/
theorem exclusive_explained (hEx : Explaining Ex) (hok : Ok P.init)
    (hlin : ∀ g₀ m₁ H₁, Ok g₀ → (P.from g₀).mach.Exec m₁ H₁ → ∃ s, Ex (abs g₀) (H₁.map liftE) s)
    (hx : ∀ g₀ m₁ H₁ i x g' r, Ok g₀ → (P.from g₀).mach.Exec m₁ H₁ → m₁.Quiet → XRun xb xs m₁.g i x g' (.inr r) →
      Ok g' ∧ ∀ s, Ex s [.inv i (.inr x), .ret i r] (abs g'))
    (h : (P.withX xb xs).mach.Exec m H) (hex : Exclusive H) : ∃ s, Ex (abs P.init) H s := by
  cases pinv hEx hok hlin hx h hex with
  | normal H₀ g₀ H₁ m₁ hN hg hH => rw [hH]; exact (hN.lin hEx hlin).2
  | alone H₀ g₀ H₁ m₁ i x y hN hq hi hidle hrun hpi hH =>
    obtain ⟨hmade, s, hL⟩ := hN.lin hEx hlin
    have hfresh : ¬ HasInv (H₀ ++ H₁.map liftE) i := by
      rintro ⟨o, ho⟩
      rw [List.mem_append] at ho
      rcases ho with ho | ho
      · exact hi ⟨o, ho⟩
      · obtain ⟨op, rfl, ho'⟩ := mem_liftE_inv.mp ho
        obtain ⟨z, hz⟩ := (((P.from g₀).hist hN.exec).1 i op).mp ho'
        simp [Conf.view, hidle, Proc.view] at hz
    have hap : Apart (H₀ ++ H₁.map liftE) [.inv i (.inr x)] := by
      rintro k hk ⟨o, ho⟩
      simp only [List.mem_singleton, Ev.inv.injEq] at ho
      rw [ho.1] at hk
      exact hfresh hk
    have hmx : Made [(Ev.inv i (.inr x) : Ev (Op ⊕ X) Res)] := by rintro k ⟨q, hq⟩; simp at hq
    rw [hH]
    exact ⟨s, hEx.append _ _ _ _ _ hL (hEx.pending s i x) hap hmade hmx⟩

end

/-! ## Linearizability -/

section
variable {P : Prog G Op Res S} {xb : X → T} {xs : G → Nat → X → T → Nat → Option (G × (T ⊕ Res))}
  {Sp : Spec σ Op Res} {XS : σ → X → Res → σ → Prop} {R : Op → Res → (σ → Prop) → (σ → Prop) → Prop} {abs : G → σ} {Ok : G → Prop}
  {m : Conf G (Op ⊕ X) Res (S ⊕ T)} {H : List (Ev (Op ⊕ X) Res)}

/-- A linearization with observations, as an explanation. -/
def LinEx (Sp : Spec σ Op Res) (XS : σ → X → Res → σ → Prop) (R : Op → Res → (σ → Prop) → (σ → Prop) → Prop) (s : σ)
    (H : List (Ev (Op ⊕ X) Res)) (s' : σ) : Prop :=
  ∃ L st, Linearization ⟨s, (Sp.withX XS).step⟩ H L st ∧ st L.length = s' ∧ Observes R H L st

theorem linEx_explaining (hR : ∀ op r a b a' b', (∀ s, a s → a' s) → (∀ s, b s → b' s) → R op r a b → R op r a' b') :
    Explaining (LinEx Sp XS R) where
  nil s := ⟨[], fun _ => s, ⟨by simp, by simp, by simp, rfl, by simp, by simp⟩, rfl, by intro i op r hi; simp at hi⟩
  pending s i x := ⟨[], fun _ => s, ⟨by simp, by simp, by simp, rfl, by simp, by simp⟩, rfl, by intro i op r hi; simp at hi⟩
  append := by
    rintro s A s₁ B s₂ ⟨L₀, st₀, l1, rfl, l3⟩ ⟨L₁, st₁, l4, rfl, l6⟩ hap hA hB
    refine ⟨_, _, l1.append l4 hap hA, ?_, Observes.append hR l1 l4 hap hA hB l3 l6⟩
    rw [List.length_append, glue_right]

/-- Exclusive histories are linearizable, and the observations of the calls are kept. -/
theorem exclusive_linearization (hok : Ok P.init) (habs : abs P.init = Sp.init)
    (hR : ∀ op r a b a' b', (∀ s, a s → a' s) → (∀ s, b s → b' s) → R op r a b → R op r a' b')
    (hlin : ∀ g₀ m₁ H₁, Ok g₀ → (P.from g₀).mach.Exec m₁ H₁ → ∃ L st, Linearization ⟨abs g₀, Sp.step⟩ H₁ L st ∧
      ∀ i op r, Ev.inv i op ∈ H₁ → Ev.ret i r ∈ H₁ → R op r (fun s => ∃ n, During H₁ L i n ∧ st n = s)
        (fun s => ∃ n n' o r', During H₁ L i n ∧ st n = s ∧ n ≤ n' ∧ L[n']? = some (i, o, r')))
    (hx : ∀ g₀ m₁ H₁ i x g' r, Ok g₀ → (P.from g₀).mach.Exec m₁ H₁ → m₁.Quiet → XRun xb xs m₁.g i x g' (.inr r) →
      Ok g' ∧ ∀ s, XS s x r (abs g'))
    (h : (P.withX xb xs).mach.Exec m H) (hex : Exclusive H) :
    ∃ L st, Linearization (Sp.withX XS) H L st ∧ Observes R H L st := by
  have := exclusive_explained (Ex := LinEx Sp XS R) (abs := abs) (linEx_explaining hR) hok ?_ ?_ h hex
  · obtain ⟨s, L, st, hL, -, hO⟩ := this
    rw [habs] at hL
    exact ⟨L, st, hL, hO⟩
  · intro g₀ m₁ H₁ h0 hE
    obtain ⟨L, st, l4, l5⟩ := hlin g₀ m₁ H₁ h0 hE
    refine ⟨_, _, st, l4.lift (XS := XS), rfl, ?_⟩
    intro i op r hi hr
    obtain ⟨op', e, hi⟩ := mem_liftE_inv.mp hi
    simp only [Sum.inl.injEq] at e
    subst e
    refine hR _ _ _ _ _ _ ?_ ?_ (l5 i op r hi (mem_liftE_ret.mp hr))
    · rintro s ⟨n, a1, a2⟩; exact ⟨n, during_liftL.mpr a1, a2⟩
    · rintro s ⟨n, n', o, r', a1, a2, a3, a4⟩
      exact ⟨n, n', .inl o, r', during_liftL.mpr a1, a2, a3, getElem?_liftL.mpr ⟨o, rfl, a4⟩⟩
  · intro g₀ m₁ H₁ i x g' r h0 hE hq hr
    obtain ⟨h1, h2⟩ := hx g₀ m₁ H₁ i x g' r h0 hE hq hr
    refine ⟨h1, fun s => ⟨[(i, .inr x, r)], fun n => if n = 0 then s else abs g', ⟨by simp, by simp, ?_, by simp, ?_, by simp⟩, by simp, ?_⟩⟩
    · intro k q hq
      simp only [List.mem_cons, Ev.ret.injEq, reduceCtorEq, List.not_mem_nil, or_false, false_or] at hq
      obtain ⟨rfl, rfl⟩ := hq
      exact ⟨.inr x, by simp⟩
    · intro n k o q hn
      cases n with
      | zero =>
        simp only [List.getElem?_cons_zero, Option.some.injEq, Prod.mk.injEq] at hn
        obtain ⟨rfl, rfl, rfl⟩ := hn
        simpa [Spec.withX] using h2 s
      | succ n => simp at hn
    · intro k op q hk
      simp at hk

end

end Verif.Conc

import Verif.XSync.ResManPanicProps
import Verif.Conc.Crash
/-! # What is left of a `ResourceManager` after a panic with the lock held (C32, C107) -/
namespace Verif.XSync.ResMan
open Verif.Conc Verif.XError

variable {K E : Type} [DecidableEq K] {cerr : Nat → Option E} {pan : E → Bool} {isNil : Nat → Bool}

/-- A result that is a panic with the write lock held: `Close` has panicked, or `Get` has assigned to an entry of the nil map. -/
def ResN.locks : ResN E → Bool
  | .closePanics _ | .panics .nilMap => true
  | _ => false

/-- The write lock is held, and not by a `Close` that is still running. -/
def Locked (g : G K E) (v : View (Op K E) (ResN E) (Pt K E)) : Prop :=
  ∃ l, g.wlock = some l ∧ ∀ op todo be, v l ≠ some (op, .inl (.closing todo be))

/-- Proof only: part of an invariant or simulation; models no code. -/
structure LInv (g : G K E) (v : View (Op K E) (ResN E) (Pt K E)) : Prop where
  closing : ∀ i op todo be, v i = some (op, .inl (.closing todo be)) → g.wlock = some i
  bad : ∀ i op r, v i = some (op, .inr r) → r.locks = true → Locked g v
  finish : ∀ i op, v i = some (op, .inl (.finish .panic)) → Locked g v
  drop : ∀ i op, v i = some (op, .inl (.drop .panic)) → Locked g v
  fin : ∀ l, g.fin l = some .panic → Locked g v

theorem locks_deliver (o : Outcome E) : (deliver pan isNil o).locks = true → o = .panic := by
  cases o <;> simp only [deliver] <;> (try split) <;> simp [ResN.locks]

omit [DecidableEq K] in
theorem Locked.move {g g' : G K E} {v : View (Op K E) (ResN E) (Pt K E)} {i : Nat} {y : Op K E × (Pt K E ⊕ ResN E)} (h : Locked g v)
    (hg : g'.wlock = g.wlock) (hy : ∀ todo be, y.2 ≠ .inl (.closing todo be)) : Locked g' (upd v i (some y)) := by
  obtain ⟨l, h1, h2⟩ := h
  refine ⟨l, by rw [hg, h1], fun op todo be => ?_⟩
  by_cases hl : l = i
  · subst hl; rw [upd_same]; intro hc; simp only [Option.some.injEq] at hc; subst hc; exact hy _ _ rfl
  · rw [upd_ne _ _ hl]; exact h2 op todo be

omit [DecidableEq K] in
/-- A step that does not touch the lock and does not become a panic by itself. -/
theorem LInv.plain {g g' : G K E} {v : View (Op K E) (ResN E) (Pt K E)} {i : Nat} {op : Op K E} {x : Pt K E ⊕ ResN E} (h : LInv g v)
    (hg : g'.wlock = g.wlock) (hx : ∀ todo be, x ≠ .inl (.closing todo be)) (hp : (∃ r, x = .inr r ∧ r.locks = true) ∨ x = .inl (.finish .panic) ∨
      x = .inl (.drop .panic) ∨ (∃ l, g'.fin l = some .panic ∧ g.fin l ≠ some .panic) → Locked g v) : LInv g' (upd v i (some (op, x))) := by
  have mv : Locked g v → Locked g' (upd v i (some (op, x))) := fun hl => hl.move hg hx
  refine ⟨fun j o todo be hj => ?_, fun j o r hj hr => ?_, fun j o hj => ?_, fun j o hj => ?_, fun l hl => ?_⟩
  all_goals try by_cases hji : j = i
  · subst hji; rw [upd_same] at hj; simp only [Option.some.injEq, Prod.mk.injEq] at hj; exact absurd hj.2 (hx todo be)
  · rw [upd_ne _ _ hji] at hj; rw [hg]; exact h.closing j o todo be hj
  · subst hji; rw [upd_same] at hj; simp only [Option.some.injEq, Prod.mk.injEq] at hj; exact mv (hp (.inl ⟨r, hj.2, hr⟩))
  · rw [upd_ne _ _ hji] at hj; exact mv (h.bad j o r hj hr)
  · subst hji; rw [upd_same] at hj; simp only [Option.some.injEq, Prod.mk.injEq] at hj; exact mv (hp (.inr (.inl hj.2)))
  · rw [upd_ne _ _ hji] at hj; exact mv (h.finish j o hj)
  · subst hji; rw [upd_same] at hj; simp only [Option.some.injEq, Prod.mk.injEq] at hj; exact mv (hp (.inr (.inr (.inl hj.2))))
  · rw [upd_ne _ _ hji] at hj; exact mv (h.drop j o hj)
  · by_cases hl' : g.fin l = some .panic
    · exact mv (h.fin l hl')
    · exact mv (hp (.inr (.inr (.inr ⟨l, hl, hl'⟩))))

omit [DecidableEq K] in
/-- Nobody can have panicked with the lock held while the lock is free or held by a `Close` that is running. -/
theorem LInv.calm {g : G K E} {v : View (Op K E) (ResN E) (Pt K E)} (h : LInv g v) (hn : ¬ Locked g v) :
    (∀ i op r, v i = some (op, .inr r) → r.locks = false) ∧ (∀ i op, v i ≠ some (op, .inl (.finish .panic))) ∧
    (∀ i op, v i ≠ some (op, .inl (.drop .panic))) ∧ ∀ l, g.fin l ≠ some .panic :=
  ⟨fun i op r hi => by by_contra hc; exact hn (h.bad i op r hi (by simpa using hc)), fun i op hi => hn (h.finish i op hi),
    fun i op hi => hn (h.drop i op hi), fun l hl => hn (h.fin l hl)⟩

omit [DecidableEq K] in
/-- The `Close` that is running has the lock. -/
theorem LInv.unlocked {g : G K E} {v : View (Op K E) (ResN E) (Pt K E)} (h : LInv g v) {i : Nat} {op : Op K E} {todo : List (K × Nat)} {be : BatchError E}
    (hi : v i = some (op, .inl (.closing todo be))) : ¬ Locked g v := by
  rintro ⟨l, h1, h2⟩
  rw [h.closing i op todo be hi, Option.some.injEq] at h1
  subst h1; exact h2 _ _ _ hi

omit [DecidableEq K] in
theorem free_unlocked {g : G K E} {v : View (Op K E) (ResN E) (Pt K E)} (h : g.wlock.isSome = false) : ¬ Locked g v := by
  rintro ⟨l, h1, _⟩; simp [h1] at h

omit [DecidableEq K] in
/-- A step after which nobody has panicked with the lock held. -/
theorem LInv.clean {g g' : G K E} {v : View (Op K E) (ResN E) (Pt K E)} {i : Nat} {op : Op K E} {x : Pt K E ⊕ ResN E} (h : LInv g v) (hn : ¬ Locked g v)
    (hc : ∀ j o todo be, upd v i (some (op, x)) j = some (o, .inl (.closing todo be)) → g'.wlock = some j) (hf : g'.fin = g.fin)
    (h1 : ∀ r, x = .inr r → r.locks = false) (h2 : x ≠ .inl (.finish .panic)) (h3 : x ≠ .inl (.drop .panic)) : LInv g' (upd v i (some (op, x))) := by
  obtain ⟨c1, c2, c3, c4⟩ := h.calm hn
  refine ⟨hc, fun j o r hj hr => ?_, fun j o hj => ?_, fun j o hj => ?_, fun l hl => ?_⟩
  all_goals try by_cases hji : j = i
  · subst hji; rw [upd_same] at hj; simp only [Option.some.injEq, Prod.mk.injEq] at hj; simp [h1 r hj.2] at hr
  · rw [upd_ne _ _ hji] at hj; simp [c1 j o r hj] at hr
  · subst hji; rw [upd_same] at hj; simp only [Option.some.injEq, Prod.mk.injEq] at hj; exact absurd hj.2 h2
  · rw [upd_ne _ _ hji] at hj; exact absurd hj (c2 j o)
  · subst hji; rw [upd_same] at hj; simp only [Option.some.injEq, Prod.mk.injEq] at hj; exact absurd hj.2 h3
  · rw [upd_ne _ _ hji] at hj; exact absurd hj (c3 j o)
  · rw [hf] at hl; exact absurd hl (c4 l)

theorem linv_step {g g' : G K E} {v : View (Op K E) (ResN E) (Pt K E)} {i c : Nat} {op : Op K E} {s : Pt K E} {x : Pt K E ⊕ ResN E} (h : LInv g v)
    (hv : v i = some (op, .inl s)) (hs : stepN cerr pan isNil g i op s c = some (g', x)) : LInv g' (upd v i (some (op, x))) := by
  have one : ∀ {j o todo be} {y : Pt K E ⊕ ResN E}, upd v i (some (op, y)) j = some (o, .inl (.closing todo be)) → g.wlock.isSome = false →
      j = i ∧ y = .inl (.closing todo be) := by
    intro j o todo be y hj hw
    by_cases hji : j = i
    · subst hji; rw [upd_same] at hj; simp only [Option.some.injEq, Prod.mk.injEq] at hj; exact ⟨rfl, hj.2⟩
    · rw [upd_ne _ _ hji] at hj; have := h.closing _ _ _ _ hj; simp [this] at hw
  cases op with
  | get k f =>
    simp only [stepN] at hs
    cases s with
    | start =>
      simp only [getStep] at hs
      cases hf : g.flight k <;> simp only [hf, Option.some.injEq, Prod.mk.injEq] at hs <;> obtain ⟨rfl, rfl⟩ := hs
      all_goals exact h.plain rfl (by simp) (by simp)
    | wait l =>
      simp only [getStep] at hs
      cases hf : g.fin l with
      | none => simp [hf] at hs
      | some o =>
        simp only [hf, Option.some.injEq, Prod.mk.injEq] at hs
        obtain ⟨rfl, rfl⟩ := hs
        refine h.plain rfl (by simp) ?_
        rintro (⟨r, hr, hl⟩ | hc | hc | ⟨_, h1, h2⟩)
        · simp only [Sum.inr.injEq] at hr; subst hr
          exact h.fin l (by rw [hf, locks_deliver o hl])
        · simp at hc
        · simp at hc
        · exact absurd h1 h2
    | lookup =>
      simp only [getStep] at hs
      by_cases hw : g.wlock.isSome
      · simp [hw] at hs
      · simp only [hw, Bool.false_eq_true, if_false] at hs
        cases hf : g.res.bind (find · k) <;> simp only [hf, Option.some.injEq, Prod.mk.injEq] at hs <;> obtain ⟨rfl, rfl⟩ := hs
        all_goals exact h.plain rfl (by simp) (by simp)
    | create =>
      simp only [getStep] at hs
      cases f <;> simp only [Option.some.injEq, Prod.mk.injEq] at hs <;> obtain ⟨rfl, rfl⟩ := hs
      all_goals exact h.plain rfl (by simp) (by simp)
    | store =>
      simp only [getStep] at hs
      by_cases hw : g.wlock.isSome
      · simp [hw] at hs
      · simp only [hw, Bool.false_eq_true, if_false] at hs
        cases hf : g.res <;> simp only [hf, Option.some.injEq, Prod.mk.injEq] at hs <;> obtain ⟨rfl, rfl⟩ := hs
        · have hL : Locked { g with wlock := some i } (upd v i (some (.get k f, .inl (.finish .panic)))) :=
            ⟨i, rfl, fun op todo be => by rw [upd_same]; simp⟩
          refine ⟨fun j o todo be hj => ?_, fun _ _ _ _ _ => hL, fun _ _ _ => hL, fun _ _ _ => hL, fun _ _ => hL⟩
          have := (one hj (by simpa using hw)).2
          simp at this
        · exact h.plain rfl (by simp) (by simp)
    | finish o =>
      simp only [getStep, Option.some.injEq, Prod.mk.injEq] at hs
      obtain ⟨rfl, rfl⟩ := hs
      refine h.plain rfl (by simp) ?_
      rintro (⟨r, hr, hl⟩ | hc | hc | ⟨l, h1, h2⟩)
      · simp at hr
      · simp at hc
      · simp only [Sum.inl.injEq, Pt.drop.injEq] at hc; subst hc; exact h.finish i _ hv
      · by_cases hl : l = i
        · subst hl; simp only [upd_same, Option.some.injEq] at h1; subst h1; exact h.finish l _ hv
        · simp only [upd_ne _ _ hl] at h1; exact absurd h1 h2
    | drop o =>
      simp only [getStep, Option.some.injEq, Prod.mk.injEq] at hs
      obtain ⟨rfl, rfl⟩ := hs
      refine h.plain rfl (by simp) ?_
      rintro (⟨r, hr, hl⟩ | hc | hc | ⟨l, h1, h2⟩)
      · simp only [Sum.inr.injEq] at hr; subst hr
        have := locks_deliver o hl; subst this; exact h.drop i _ hv
      · simp at hc
      · simp at hc
      · exact absurd h1 h2
    | remove => simp [getStep] at hs
    | lock => simp [getStep] at hs
    | closing todo be => simp [getStep] at hs
  | remove k =>
    simp only [stepN] at hs
    cases s <;> simp only [removeStep, reduceCtorEq] at hs
    by_cases hw : g.wlock.isSome
    · simp [hw] at hs
    · simp only [hw, Bool.false_eq_true, if_false] at hs
      cases hr : g.res with
      | none =>
        simp only [hr, Option.some.injEq, Prod.mk.injEq] at hs
        obtain ⟨rfl, rfl⟩ := hs
        exact h.plain rfl (by simp) (by simp [ResN.locks])
      | some l =>
        cases hf : find l k <;> simp only [hr, hf, Option.some.injEq, Prod.mk.injEq] at hs <;> obtain ⟨rfl, rfl⟩ := hs
        all_goals exact h.plain rfl (by simp) (by simp [ResN.locks])
  | close =>
    rcases stepN_cases hs with ⟨rfl, _, todo, be, y, rfl, _, _, rfl⟩ | ⟨s', rfl, he⟩ | ⟨r, r', rfl, hb, he⟩
    · have hw := h.closing i _ todo be hv
      have hL : Locked g' (upd v i (some (.close, .inr (.closePanics y.2)))) := ⟨i, hw, fun op todo be => by rw [upd_same]; simp⟩
      refine ⟨fun j o t b hj => ?_, fun _ _ _ _ _ => hL, fun _ _ _ => hL, fun _ _ _ => hL, fun _ _ => hL⟩
      by_cases hji : j = i
      · subst hji; exact hw
      · rw [upd_ne _ _ hji] at hj; exact h.closing _ _ _ _ hj
    · simp only [prog] at he
      cases s <;> simp only [closeStep, reduceCtorEq] at he
      · by_cases hw : g.wlock.isSome
        · simp [hw] at he
        · simp only [hw, Bool.false_eq_true, if_false, Option.some.injEq, Prod.mk.injEq, Sum.inl.injEq] at he
          obtain ⟨rfl, rfl⟩ := he
          refine h.clean (free_unlocked (by simpa using hw)) (fun j o todo be hj => ?_) rfl (by simp) (by simp) (by simp)
          rw [(one hj (by simpa using hw)).1]
      · rename_i todo be
        split at he
        · simp at he
        · split at he
          · simp at he
          · simp only [Option.some.injEq, Prod.mk.injEq, Sum.inl.injEq] at he
            obtain ⟨rfl, rfl⟩ := he
            refine h.clean (h.unlocked hv) (fun j o t b hj => ?_) rfl (by simp) (by simp) (by simp)
            have hw := h.closing i _ todo be hv
            by_cases hji : j = i
            · subst hji; exact hw
            · rw [upd_ne _ _ hji] at hj; exact h.closing _ _ _ _ hj
    · simp only [prog] at he
      cases s <;> simp only [closeStep, reduceCtorEq] at he
      · split at he <;> simp at he
      · rename_i todo be
        split at he
        · simp only [Option.some.injEq, Prod.mk.injEq, Sum.inr.injEq] at he
          obtain ⟨rfl, rfl⟩ := he
          have hw := h.closing i _ _ be hv
          refine h.clean (h.unlocked hv) (fun j o t b hj => ?_) rfl (fun r0 hr => ?_) (by simp) (by simp)
          · by_cases hji : j = i
            · subst hji; rw [upd_same] at hj; simp at hj
            · rw [upd_ne _ _ hji] at hj
              have := h.closing _ _ _ _ hj
              rw [hw, Option.some.injEq] at this
              exact absurd this.symm hji
          · simp only [Sum.inr.injEq] at hr
            subst hr
            cases r with
            | panics w => cases w <;> simp [back] at hb
            | closePanics _ => simp [back] at hb
            | _ => rfl
        · split at he <;> simp at he

theorem linv_begin {g : G K E} {v : View (Op K E) (ResN E) (Pt K E)} (h : LInv g v) (i : Nat) (op : Op K E) :
    LInv g (upd v i (some (op, .inl ((prog cerr).begin op)))) :=
  h.plain rfl (by cases op <;> simp [prog]) (by cases op <;> simp [prog])

theorem linv_exec {m : Conf (G K E) (Op K E) (ResN E) (Pt K E)} {H : List (Ev (Op K E) (ResN E))} (h : (progN cerr pan isNil).mach.Exec m H) :
    LInv m.g m.view :=
  (progN cerr pan isNil).induct (fun g v _ => LInv g v) ⟨by simp, by simp, by simp, by simp, by simp [progN, new]⟩
    (fun _ _ _ i op hI _ => linv_begin (cerr := cerr) hI i op) (fun _ _ _ _ _ _ _ _ _ hI hv hs => linv_step hI hv hs) (fun _ _ _ _ _ _ hI _ => hI) h

/-- A `Get` of the key that had begun and not ended in the history. -/
def UnderWay (H : List (Ev (Op K E) (ResN E))) (k : K) (l : Nat) : Prop := (∃ f, Ev.inv l (.get k f) ∈ H) ∧ ∀ r, Ev.ret l r ∉ H

/-- The call is not in the history. -/
def New (H : List (Ev (Op K E) (ResN E))) (i : Nat) : Prop := ∀ op, Ev.inv i op ∉ H

/-- How far the calls come that are made after the history `H₀`. -/
def Far (H₀ : List (Ev (Op K E) (ResN E))) : Op K E → Pt K E ⊕ ResN E → Prop
  | .remove _, x => x = .inl .remove
  | .close, x => x = .inl .lock
  | .get k _, x => x = .inl .start ∨ x = .inl .lookup ∨ (∃ l, x = .inl (.wait l) ∧ (UnderWay H₀ k l ∨ New H₀ l)) ∨ ∃ r l, x = .inr r ∧ UnderWay H₀ k l

/-- Proof only: part of an invariant or simulation; models no code. -/
structure After (H₀ : List (Ev (Op K E) (ResN E))) (g : G K E) (v : View (Op K E) (ResN E) (Pt K E)) : Prop where
  linv : LInv g v
  locked : Locked g v
  far : ∀ i op x, New H₀ i → v i = some (op, x) → Far H₀ op x
  fin : ∀ i, New H₀ i → g.fin i = none
  flight : ∀ k l, g.flight k = some l → UnderWay H₀ k l ∨ New H₀ l
  fresh : ∀ i, v i = none → New H₀ i
  old : ∀ i op x, v i = some (op, x) → Ev.inv i op ∈ H₀ ∨ New H₀ i
  open' : ∀ i, v i = none ∨ (∃ op s, v i = some (op, .inl s)) → ∀ r, Ev.ret i r ∉ H₀

variable {H₀ : List (Ev (Op K E) (ResN E))}

theorem After.begin {g : G K E} {v : View (Op K E) (ResN E) (Pt K E)} (h : After H₀ g v) {i : Nat} (op : Op K E) (hv : v i = none) :
    After H₀ g (upd v i (some (op, .inl ((prog cerr).begin op)))) := by
  have hn := h.fresh i hv
  refine ⟨linv_begin h.linv i op, h.locked.move rfl (by cases op <;> simp [prog]), fun j o x hj hx => ?_, h.fin, h.flight, fun j hj => ?_,
    fun j o x hx => ?_, fun j hj => ?_⟩
  all_goals by_cases hji : j = i
  · subst hji; rw [upd_same] at hx; simp only [Option.some.injEq, Prod.mk.injEq] at hx; obtain ⟨rfl, rfl⟩ := hx
    cases op <;> simp [prog, Far]
  · rw [upd_ne _ _ hji] at hx; exact h.far j o x hj hx
  · subst hji; exact hn
  · rw [upd_ne _ _ hji] at hj; exact h.fresh j hj
  · subst hji; exact .inr hn
  · rw [upd_ne _ _ hji] at hx; exact h.old j o x hx
  · subst hji; exact h.open' j (.inl hv)
  · rw [upd_ne _ _ hji] at hj; exact h.open' j hj

theorem After.step {g g' : G K E} {v : View (Op K E) (ResN E) (Pt K E)} {i c : Nat} {op : Op K E} {s : Pt K E} {x : Pt K E ⊕ ResN E} (h : After H₀ g v)
    (hv : v i = some (op, .inl s)) (hs : stepN cerr pan isNil g i op s c = some (g', x)) : After H₀ g' (upd v i (some (op, x))) := by
  obtain ⟨lk, hw, hnc⟩ := h.locked
  have hws : g.wlock.isSome = true := by simp [hw]
  have hopen := h.open' i (.inr ⟨op, s, hv⟩)
  have hcl : ∀ todo be, s ≠ .closing todo be := fun todo be hc => h.linv.unlocked (by rw [hc] at hv; exact hv) h.locked
  have goal : ∀ (_ : g'.wlock = g.wlock) (_ : ∀ todo be, x ≠ .inl (.closing todo be)) (_ : New H₀ i → Far H₀ op x) (_ : ∀ j, New H₀ j → g'.fin j = none)
      (_ : ∀ k l, g'.flight k = some l → UnderWay H₀ k l ∨ New H₀ l), After H₀ g' (upd v i (some (op, x))) := by
    intro e1 e2 e3 e4 e5
    refine ⟨linv_step h.linv hv hs, h.locked.move e1 e2, fun j o y hj hy => ?_, e4, e5, fun j hj => ?_, fun j o y hy => ?_, fun j hj => ?_⟩
    all_goals by_cases hji : j = i
    · subst hji; rw [upd_same] at hy; simp only [Option.some.injEq, Prod.mk.injEq] at hy; obtain ⟨rfl, rfl⟩ := hy; exact e3 hj
    · rw [upd_ne _ _ hji] at hy; exact h.far j o y hj hy
    · subst hji; rw [upd_same] at hj; simp at hj
    · rw [upd_ne _ _ hji] at hj; exact h.fresh j hj
    · subst hji; rw [upd_same] at hy; simp only [Option.some.injEq, Prod.mk.injEq] at hy; obtain ⟨rfl, rfl⟩ := hy; exact h.old j op _ hv
    · rw [upd_ne _ _ hji] at hy; exact h.old j o y hy
    · subst hji; exact hopen
    · rw [upd_ne _ _ hji] at hj; exact h.open' j hj
  have hfar : New H₀ i → Far H₀ op (.inl s) := fun hn => h.far i op _ hn hv
  cases op with
  | get k f =>
    have hme : UnderWay H₀ k i ∨ New H₀ i := (h.old i _ _ hv).imp (fun ho => ⟨⟨f, ho⟩, hopen⟩) id
    simp only [stepN] at hs
    cases s with
    | start =>
      simp only [getStep] at hs
      cases hf : g.flight k <;> simp only [hf, Option.some.injEq, Prod.mk.injEq] at hs <;> obtain ⟨rfl, rfl⟩ := hs
      · refine goal rfl (by simp) (fun _ => .inr (.inl rfl)) h.fin fun k' l hl => ?_
        by_cases hk : k' = k
        · subst hk; simp only [if_true, Option.some.injEq] at hl; subst hl; exact hme
        · simp only [hk, if_false] at hl; exact h.flight k' l hl
      · rename_i l
        exact goal rfl (by simp) (fun _ => .inr (.inr (.inl ⟨l, rfl, h.flight k l hf⟩))) h.fin h.flight
    | wait l =>
      simp only [getStep] at hs
      cases hf : g.fin l with
      | none => simp [hf] at hs
      | some o =>
        simp only [hf, Option.some.injEq, Prod.mk.injEq] at hs
        obtain ⟨rfl, rfl⟩ := hs
        refine goal rfl (by simp) (fun hn => ?_) h.fin h.flight
        have := hfar hn
        simp only [Far, Sum.inl.injEq, reduceCtorEq, false_or, Pt.wait.injEq, false_and, exists_false, or_false] at this
        obtain ⟨l', rfl, hu⟩ := this
        rcases hu with hu | hu
        · exact .inr (.inr (.inr ⟨_, l, rfl, hu⟩))
        · rw [h.fin l hu] at hf; simp at hf
    | lookup => simp [getStep, hws] at hs
    | create =>
      have hno : ¬ New H₀ i := fun hn => by simpa [Far] using hfar hn
      simp only [getStep] at hs
      cases f <;> simp only [Option.some.injEq, Prod.mk.injEq] at hs <;> obtain ⟨rfl, rfl⟩ := hs
      all_goals exact goal rfl (by simp) (fun hn => absurd hn hno) h.fin h.flight
    | store => simp [getStep, hws] at hs
    | finish o =>
      have hno : ¬ New H₀ i := fun hn => by simpa [Far] using hfar hn
      simp only [getStep, Option.some.injEq, Prod.mk.injEq] at hs
      obtain ⟨rfl, rfl⟩ := hs
      refine goal rfl (by simp) (fun hn => absurd hn hno) (fun j hj => ?_) h.flight
      have : j ≠ i := fun e => hno (e ▸ hj)
      simp only [upd_ne _ _ this]; exact h.fin j hj
    | drop o =>
      have hno : ¬ New H₀ i := fun hn => by simpa [Far] using hfar hn
      simp only [getStep, Option.some.injEq, Prod.mk.injEq] at hs
      obtain ⟨rfl, rfl⟩ := hs
      refine goal rfl (by simp) (fun hn => absurd hn hno) h.fin fun k' l hl => ?_
      by_cases hk : k' = k
      · simp [hk] at hl
      · simp only [hk, if_false] at hl; exact h.flight k' l hl
    | remove => simp [getStep] at hs
    | lock => simp [getStep] at hs
    | closing todo be => simp [getStep] at hs
  | remove k =>
    simp only [stepN] at hs
    cases s <;> simp [removeStep, hws] at hs
  | close =>
    rcases stepN_cases hs with ⟨_, _, todo, be, _, hc, _⟩ | ⟨s', rfl, he⟩ | ⟨r, r', rfl, hb, he⟩
    · exact absurd hc (hcl todo be)
    all_goals
      simp only [prog] at he
      cases s with
      | lock => simp [closeStep, hws] at he
      | closing todo be => exact absurd rfl (hcl todo be)
      | _ => simp [closeStep] at he

/-- **C107, C32.** Once a `Close` has panicked, or a `Get` has panicked because the manager is closed, no `Remove` and no `Close` made afterwards ever
returns, however the execution goes on, and a `Get` made afterwards returns only if another `Get` of the same key was still under way. -/
theorem C107_locked {m m' : Conf (G K E) (Op K E) (ResN E) (Pt K E)} {H H' : List (Ev (Op K E) (ResN E))} (h : (progN cerr pan isNil).mach.Exec m H)
    (hp : (∃ j x, Ev.ret j (.closePanics x) ∈ H) ∨ ∃ j, Ev.ret j (.panics .nilMap) ∈ H) (ho : (progN cerr pan isNil).mach.Onward m H m' H') {i : Nat}
    {op : Op K E} (hn : ∀ o, Ev.inv i o ∉ H) (hi : Ev.inv i op ∈ H') {r : ResN E} (hr : Ev.ret i r ∈ H') :
    ∃ k f, op = .get k f ∧ ∃ l f', Ev.inv l (.get k f') ∈ H ∧ ∀ r', Ev.ret l r' ∉ H := by
  obtain ⟨hh, hh'⟩ := (progN cerr pan isNil).hist h
  have hL := linv_exec h
  obtain ⟨m₀, h₀, hg, hS⟩ := refinesN h
  have hI := inv_exec cerr h₀
  have pend : ∀ {l k f s}, m.view l = some (.get k f, .inl s) → UnderWay H k l := fun {l k f s} hv =>
    ⟨⟨f, (hh l _).mpr ⟨_, hv⟩⟩, fun r hc => by obtain ⟨o, ho⟩ := hh' l r hc; rw [ho] at hv; simp at hv⟩
  have h0 : After H m.g m.view := by
    refine ⟨hL, ?_, fun j o x hj hx => absurd ((hh j o).mpr ⟨x, hx⟩) (hj o), fun j hj => ?_, fun k l hf => ?_, fun j hj o hc => ?_,
      fun j o x hx => .inl ((hh j o).mpr ⟨x, hx⟩), fun j hj r hc => ?_⟩
    · rcases hp with ⟨j, x, hj⟩ | ⟨j, hj⟩
      · obtain ⟨o, ho⟩ := hh' j _ hj; exact hL.bad j o _ ho rfl
      · obtain ⟨o, ho⟩ := hh' j _ hj; exact hL.bad j o _ ho rfl
    · have hm := (progN cerr pan isNil).not_made h hj
      have hv : m.view j = none := by simp [Conf.view, hm, Proc.view]
      cases hfin : m.g.fin j with
      | none => rfl
      | some o =>
        rw [← hg] at hfin
        obtain ⟨k, f, x, hx, _⟩ := hI.finView j o hfin
        have := hS j
        simp only [hv] at this
        rw [this] at hx; simp at hx
    · rw [← hg] at hf
      obtain ⟨f, s, hl, hs⟩ := (hI.leader k l).mp hf
      have := hS l
      cases hv : m.view l with
      | none => rw [hv] at this; simp only at this; rw [this] at hl; simp at hl
      | some y =>
        obtain ⟨o, y⟩ := y
        cases y with
        | inl t =>
          rw [hv] at this
          simp only [hl, Option.some.injEq, Prod.mk.injEq] at this
          obtain ⟨rfl, _⟩ := this
          exact .inl (pend hv)
        | inr r =>
          simp only [hv] at this
          split at this
          · rw [hl] at this; simp at this
          · obtain ⟨_, todo, be, hc⟩ := this; rw [hl] at hc; simp at hc
    · obtain ⟨x, hx⟩ := (hh j o).mp hc; rw [hx] at hj; simp at hj
    · obtain ⟨o, ho⟩ := hh' j r hc
      rcases hj with hj | ⟨op, s, hj⟩ <;> rw [ho] at hj <;> simp at hj
  have h1 : After H m'.g m'.view := (progN cerr pan isNil).onward (fun g v _ => After H g v) (fun _ _ _ i op hI hv => After.begin (cerr := cerr) hI op hv)
    (fun _ _ _ _ _ _ _ _ _ hI hv hs => hI.step hv hs) (fun _ _ _ _ _ _ hI _ => hI) ho h0
  have h' : (progN cerr pan isNil).mach.Exec m' H' := (Mach.Onward.keeps (Q := fun _ => True) (fun _ _ _ _ _ _ _ => trivial) ho h trivial).1
  have := h1.far i op _ hn ((progN cerr pan isNil).ret_view h' hi hr)
  cases op with
  | get k f =>
    refine ⟨k, f, rfl, ?_⟩
    simp only [Far, reduceCtorEq, false_or, false_and, exists_false] at this
    obtain ⟨_, l, _, ⟨f', hf⟩, hl⟩ := this
    exact ⟨l, f', hf, hl⟩
  | remove k => simp [Far] at this
  | close => simp [Far] at this

/-- A `Close` panics while a `Get` is still under way; another `Get` of its key, made afterwards, joins it and returns, whereas a `Remove`, a `Close` and a
`Get` of another key do not. -/
theorem demoLocked : ∃ m m', (progN (fun _ => some ()) (fun _ => true) (fun _ => false) : Prog (G Bool Unit) _ _ _).mach.Exec m
      [.inv 0 (.get true none), .inv 1 .close, .ret 1 (.closePanics 0)] ∧
    (progN (fun _ => some ()) (fun _ => true) (fun _ => false) : Prog (G Bool Unit) _ _ _).mach.Onward m
      [.inv 0 (.get true none), .inv 1 .close, .ret 1 (.closePanics 0)] m'
      [.inv 0 (.get true none), .inv 1 .close, .ret 1 (.closePanics 0), .inv 2 (.get true none), .inv 3 (.remove true), .inv 4 .close, .inv 5 (.get false none),
        .ret 0 (.got 0), .ret 2 (.got 0)] :=
  Mach.exists_onward _ [.inv 0 (.get true none), .run 0, .run 0, .run 0, .run 0, .inv 1 .close, .run 1, .run 1, .run 1]
    [.inv 2 (.get true none), .run 2, .inv 3 (.remove true), .inv 4 .close, .inv 5 (.get false none), .run 5, .run 0, .run 0, .run 0, .run 2, .run 2] _ _
    (by exact And.intro rfl rfl)

example := demoLocked.imp fun _ h => h.imp fun _ h =>
  C107_locked (i := 2) (op := .get true none) (r := .got 0) h.1 (.inl ⟨1, 0, by simp⟩) h.2 (by simp) (by simp) (by simp)

example : ∃ m m', (progN (fun _ => none) (fun _ => true) (fun _ => false) : Prog (G Bool Unit) _ _ _).mach.Exec m
      [.inv 0 .close, .ret 0 (.closed .nil), .inv 1 (.get true none), .ret 1 (.panics .nilMap)] ∧
    (progN (fun _ => none) (fun _ => true) (fun _ => false) : Prog (G Bool Unit) _ _ _).mach.Onward m
      [.inv 0 .close, .ret 0 (.closed .nil), .inv 1 (.get true none), .ret 1 (.panics .nilMap)] m'
      [.inv 0 .close, .ret 0 (.closed .nil), .inv 1 (.get true none), .ret 1 (.panics .nilMap), .inv 2 .close] ∧ ∀ r H'' m'',
    (progN (fun _ => none) (fun _ => true) (fun _ => false) : Prog (G Bool Unit) _ _ _).mach.Onward m
      [.inv 0 .close, .ret 0 (.closed .nil), .inv 1 (.get true none), .ret 1 (.panics .nilMap)] m'' H'' → Ev.inv 2 .close ∈ H'' → Ev.ret 2 r ∉ H'' := by
  obtain ⟨m, m', h1, h2⟩ := Mach.exists_onward (progN (fun _ => none) (fun _ => true) (fun _ => false) : Prog (G Bool Unit) _ _ _).mach
    [.inv 0 .close, .run 0, .run 0, .run 0, .inv 1 (.get true none), .run 1, .run 1, .run 1, .run 1, .run 1, .run 1, .run 1] [.inv 2 .close]
    [.inv 0 .close, .ret 0 (.closed .nil), .inv 1 (.get true none), .ret 1 (.panics .nilMap)] _ (by exact And.intro rfl rfl)
  refine ⟨m, m', h1, h2, fun r H'' m'' ho hi hr => ?_⟩
  obtain ⟨k, f, hc, _⟩ := C107_locked h1 (.inr ⟨1, by simp⟩) ho (by simp) hi hr
  simp at hc

end Verif.XSync.ResMan

import Verif.XSync.MapWorldsInv
/-! # `Clear` concurrent with other operations: the relation between the program and the worlds is kept -/
namespace Verif.XSync.MapWords
open Verif.Conc Verif.Go Verif.XSync.MapConc
open Verif.XSync.MapClear (Typ)

variable {K V : Type} [DecidableEq K] [DecidableEq V]

section
variable {M M' : GW K V} {v : VwW K V} {H : HW K V} {n w i : Nat} {W W' : Nat → World K V} {op : Op K V}
  {u : Option ((Op K V ⊕ ClearOp) × (PtW K V ⊕ Res K V))}

/-! ## Where a call is -/

omit [DecidableEq K] [DecidableEq V] in
theorem CallRel.congr (h : CallRel W n i u) (hv : ∀ w, w ≤ n → (W' w).v i = (W w).v i) : CallRel W' n i u := by
  have ha : ∀ op w, w ≤ n → Away (W w) i op → Away (W' w) i op := by
    intro op w hw h
    simp only [Away, hv w hw]; exact h
  have hn : (∀ w, w ≤ n → (W w).v i = none) → ∀ w, w ≤ n → (W' w).v i = none := fun h w hw => by rw [hv w hw]; exact h w hw
  have hl : ∀ op y b, Loc W n i op y b → Loc W' n i op y b := by
    rintro op y b ⟨w, h1, h2, h3, h4⟩
    exact ⟨w, h1, by rw [hv w h1]; exact h2, h3, fun w' q1 q2 => ha op w' q1 (h4 w' q1 q2)⟩
  unfold CallRel at h ⊢
  split at h <;> first
    | exact hn h
    | exact fun w hw => ha _ w hw (h w hw)
    | exact ⟨h.1, hl _ _ _ h.2⟩
    | exact h.imp (hl _ _ _) (fun h => ⟨h.1, hn h.2⟩)
    | exact h

omit [DecidableEq K] [DecidableEq V] in
theorem callRel_pt {s : Pt K V} (hs : s ≠ .lock) : CallRel W n i (some (.inl op, .inl (.pt s))) ↔ s ≠ .start ∧ Loc W n i op (.inl s) s.holds := by
  cases s <;> first | exact absurd rfl hs | exact Iff.rfl

omit [DecidableEq K] [DecidableEq V] in
theorem CallRel.inl (h : CallRel W n i u) (hw : w ≤ n) {y : Pt K V ⊕ Res K V} (hv : (W w).v i = some (op, y)) : ∃ x, u = some (.inl op, x) := by
  have away : ∀ op' w', w' = w → Away (W w') i op' → op' = op := by
    rintro op' w' rfl (h | h) <;> rw [hv] at h <;> simp at h
    exact h.1.symm
  have loc : ∀ op' y' b, Loc W n i op' y' b → op' = op := by
    rintro op' y' b ⟨w', h1, h2, h3, h4⟩
    by_cases e : w' = w
    · subst e; rw [hv] at h2; simp at h2; exact h2.1.symm
    · exact away op' w rfl (h4 w hw (fun e' => e e'.symm))
  have non : ¬ ∀ w, w ≤ n → (W w).v i = none := by
    intro h; have := h w hw; rw [hv] at this; simp at this
  unfold CallRel at h
  split at h <;> first
    | exact absurd h non
    | exact h.elim
    | exact ⟨_, by rw [away _ w rfl (h w hw)]⟩
    | exact ⟨_, by rw [loc _ _ _ h.2]⟩
    | exact ⟨_, by rw [h.elim (loc _ _ _) (fun h => absurd h.2 non)]⟩

omit [DecidableEq K] [DecidableEq V] in
theorem CallRel.held (h : CallRel W n i u) {s : Pt K V} (hv : (W n).v i = some (op, .inl s)) (hs : s.holds = true) :
    ∃ t, u = some (.inl op, .inl t) ∧ (t = .pt s ∨ t = .first s ∨ t = .last s) := by
  have away : ∀ op', ¬ Away (W n) i op' := by
    rintro op' (h | h) <;> rw [hv] at h <;> simp at h
    rw [h.2] at hs; simp [Pt.holds] at hs
  have loc : ∀ op' y' b, Loc W n i op' y' b → op' = op ∧ y' = .inl s := by
    rintro op' y' b ⟨w', h1, h2, h3, h4⟩
    by_cases e : w' = n
    · subst e; rw [hv] at h2; simp at h2; exact ⟨h2.1.symm, h2.2.symm⟩
    · exact absurd (h4 n (Nat.le_refl _) (fun e' => e e'.symm)) (away op')
  have non : ¬ ∀ w, w ≤ n → (W w).v i = none := by
    intro h; have := h n (Nat.le_refl _); rw [hv] at this; simp at this
  unfold CallRel at h
  split at h <;> first
    | exact absurd h non
    | exact h.elim
    | exact absurd (h n (Nat.le_refl _)) (away _)
    | (obtain ⟨e1, e2⟩ := loc _ _ _ h.2; simp only [Sum.inl.injEq] at e2; subst e1 e2; exact ⟨_, rfl, by simp⟩)
    | (rcases h with h | h
       · obtain ⟨_, e2⟩ := loc _ _ _ h; simp at e2
       · exact absurd h.2 non)

omit [DecidableEq K] [DecidableEq V] in
/-- After a step in the world `w`. -/
theorem callRel_up {y : Pt K V ⊕ Res K V} (hw : w ≤ n) (hv : (W w).v i = some (op, y)) (hoth : ∀ w', w' ≤ n → w' ≠ w → Away (W w') i op)
    (hs : y ≠ .inl .start) (hl : lockedX y = true → w = n) : CallRel W n i (some (.inl op, up y)) := by
  cases y with
  | inr r => exact Or.inl ⟨w, hw, hv, by simp, hoth⟩
  | inl s =>
    by_cases e : s = .lock
    · subst e
      intro w' hw'
      by_cases e : w' = w
      · subst e; exact Or.inr hv
      · exact hoth w' hw' e
    · exact (callRel_pt e).2 ⟨fun h => hs (by rw [h]), w, hw, hv, hl, hoth⟩

/-! ## Steps -/

/-- The program agrees with the current world: nobody writes the two words. -/
def Calm (M : GW K V) (g : G K V) : Prop :=
  ((M.typ = .readOnly ∧ M.data = some (g.read, g.amended)) ∨ (M.typ = .nil ∧ M.data = none ∧ g.read = [] ∧ g.amended = false)) ∧ Lower M g

omit [DecidableEq K] [DecidableEq V] in
theorem bind_upd {α β : Type} {f : Nat → Option α} {m : Option Nat} {x : Option α} (g : Option α → β) (h : m ≠ some i) : g (m.bind (upd f i x)) = g (m.bind f) := by
  cases m with
  | none => rfl
  | some j =>
    have : j ≠ i := fun e => h (by rw [e])
    simp [upd_ne _ _ this]

omit [DecidableEq V] in
/-- Only the calls at the points with the lock hold it. -/
theorem Phys.nomu (h : Phys M v n W) {x : PtW K V ⊕ Res K V} (hv : v i = some (.inl op, x))
    (hn : ∀ o s, (W n).v i = some (o, .inl s) → s.holds = false) : M.g.mu ≠ some i := by
  intro hm
  obtain ⟨o, s, h1, h2⟩ := (h.ok n (Nat.le_refl _)).inv.muIn i ((h.mu i).2 ⟨hm, op, x, hv⟩)
  rw [hn o s h1] at h2; simp at h2

omit [DecidableEq V] in
/-- A call moves on outside of the worlds. -/
theorem Phys.move (h : Phys M v n W) {y x : PtW K V ⊕ Res K V} (hv : v i = some (.inl op, y)) (hm : M.g.mu ≠ some i)
    (hc : CallRel W n i (some (.inl op, x))) : Phys M (upd v i (some (.inl op, x))) n W := by
  refine ⟨h.ok, h.apart, h.next, h.ptr, h.old, ?_, ?_, ?_, ?_, ?_⟩
  · intro j
    by_cases e : j = i
    · subst e; rw [h.mu]; simp [hm]
    · rw [h.mu]; simp [upd_ne _ _ e]
  · intro j q p hj
    by_cases e : j = i
    · subst e; simp at hj
    · rw [upd_ne _ _ e] at hj; exact h.cmu j q p hj
  · intro j hj
    have e : j ≠ i := by rintro rfl; exact hm hj
    rw [upd_ne _ _ e]; exact h.held j hj
  · rw [bind_upd (Cur M (W n).g (W (n - 1)).g n) hm]; exact h.cur
  · intro j
    by_cases e : j = i
    · subst e; simp only [upd_same]; exact hc
    · rw [upd_ne _ _ e]; exact h.calls j

omit [DecidableEq V] in
/-- A call without the lock moves on in a world. -/
theorem Phys.free (h : Phys M v n W) {y x : PtW K V ⊕ Res K V} {z : Pt K V ⊕ Res K V} (hv : v i = some (.inl op, y)) (hm : M.g.mu ≠ some i) (hw : w ≤ n)
    {g' : G K V} {gh' : Gh K V} (hok : World.Ok ⟨g', upd (W w).v i (some (op, z)), gh', (W w).lo⟩)
    (hg : ∃ p k, g' = { (W w).g with p := p, calls := k })
    (hM : M'.g.mu = M.g.mu ∧ M'.g.next = M.g.next ∧ M'.g.dirty = M.g.dirty ∧ M'.g.misses = M.g.misses ∧ M'.typ = M.typ ∧ M'.data = M.data)
    (hp : ∀ w', w' ≤ n → ∀ e, (W w').lo ≤ e → e < (W w').g.next → M'.g.p e = (if w' = w then g' else (W w').g).p e)
    (hc : CallRel (upd W w ⟨g', upd (W w).v i (some (op, z)), gh', (W w).lo⟩) n i (some (.inl op, x))) :
    Phys M' (upd v i (some (.inl op, x))) n (upd W w ⟨g', upd (W w).v i (some (op, z)), gh', (W w).lo⟩) := by
  obtain ⟨p, k, rfl⟩ := hg
  obtain ⟨m1, m2, m3, m4, m5, m6⟩ := hM
  generalize hW : upd W w ⟨{ (W w).g with p := p, calls := k }, upd (W w).v i (some (op, z)), gh', (W w).lo⟩ = W' at hc
  have hsame : ∀ w', w' ≠ w → W' w' = W w' := fun w' e => by rw [← hW, upd_ne _ _ e]
  have hat : W' w = ⟨{ (W w).g with p := p, calls := k }, upd (W w).v i (some (op, z)), gh', (W w).lo⟩ := by rw [← hW]; simp
  have hg : ∀ w', (W' w').g.mu = (W w').g.mu ∧ (W' w').g.next = (W w').g.next ∧ (W' w').lo = (W w').lo ∧ (W' w').g.read = (W w').g.read ∧
      (W' w').g.amended = (W w').g.amended ∧ (W' w').g.dirty = (W w').g.dirty ∧ (W' w').g.misses = (W w').g.misses := by
    intro w'
    by_cases e : w' = w
    · subst e; simp [hat]
    · simp [hsame w' e]
  refine ⟨?_, ?_, ?_, ?_, ?_, ?_, ?_, ?_, ?_, ?_⟩
  · intro w' hw'
    by_cases e : w' = w
    · subst e; rw [hat]; exact hok
    · rw [hsame w' e]; exact h.ok w' hw'
  · intro a b h1 h2
    rw [(hg a).2.1, (hg b).2.2.1]; exact h.apart a b h1 h2
  · rw [m2, (hg n).2.1]; exact h.next
  · intro w' hw' e h1 h2
    rw [(hg w').2.2.1] at h1
    rw [(hg w').2.1] at h2
    rw [hp w' hw' e h1 h2]
    by_cases e : w' = w
    · subst e; simp [hat]
    · simp [hsame w' e, e]
  · intro w' hw'
    rw [(hg w').1]; exact h.old w' hw'
  · intro j
    rw [(hg n).1, m1]
    by_cases e : j = i
    · subst e; rw [h.mu]; simp [hm]
    · rw [h.mu]; simp [upd_ne _ _ e]
  · intro j q t hj
    rw [m1]
    by_cases e : j = i
    · subst e; simp at hj
    · rw [upd_ne _ _ e] at hj; exact h.cmu j q t hj
  · intro j hj
    rw [m1] at hj
    have e : j ≠ i := by rintro rfl; exact hm hj
    rw [upd_ne _ _ e]; exact h.held j hj
  · rw [m1, bind_upd (Cur M' (W' n).g (W' (n - 1)).g n) hm]
    have := h.cur
    obtain ⟨_, _, _, q1, q2, q3, q4⟩ := hg n
    obtain ⟨_, _, _, r1, r2, r3, r4⟩ := hg (n - 1)
    unfold Cur NewG Lower at this ⊢
    rw [q1, q2, q3, q4, r1, r2, m3, m4, m5, m6]
    exact this
  · intro j
    by_cases e : j = i
    · subst e; simp only [upd_same]; exact hc
    · rw [upd_ne _ _ e]
      refine (h.calls j).congr fun w' hw' => ?_
      by_cases e' : w' = w
      · subst e'; simp [hat, upd_ne _ _ e]
      · simp [hsame w' e']

omit [DecidableEq V] in
/-- A call with the lock, or one that takes it, moves on in the current world. -/
theorem Phys.locked (h : Phys M v n W) {y : PtW K V ⊕ Res K V} {z : Pt K V ⊕ Res K V} (hv : v i = some (.inl op, y)) (hm : M.g.mu = none ∨ M.g.mu = some i)
    {g' : G K V} {gh' : Gh K V} (hok : World.Ok ⟨g', upd (W n).v i (some (op, z)), gh', (W n).lo⟩) (hmu : M'.g.mu = g'.mu) (hnext : M'.g.next = g'.next)
    (hp : ∀ e, (W n).lo ≤ e → e < g'.next → M'.g.p e = g'.p e) (hpo : ∀ e, e < (W n).lo → M'.g.p e = M.g.p e) (hcalm : Calm M' g')
    (hoth : ∀ w', w' ≤ n → w' ≠ n → Away (W w') i op) (hs : z ≠ .inl .start) :
    Phys M' (upd v i (some (.inl op, up z))) n (upd W n ⟨g', upd (W n).v i (some (op, z)), gh', (W n).lo⟩) := by
  generalize hW : upd W n ⟨g', upd (W n).v i (some (op, z)), gh', (W n).lo⟩ = W'
  have hsame : ∀ w', w' ≠ n → W' w' = W w' := fun w' e => by rw [← hW, upd_ne _ _ e]
  have hat : W' n = ⟨g', upd (W n).v i (some (op, z)), gh', (W n).lo⟩ := by rw [← hW]; simp
  have hlo : ∀ w', (W' w').lo = (W w').lo := by
    intro w'
    by_cases e : w' = n
    · subst e; simp [hat]
    · simp [hsame w' e]
  have hcalls : ∀ j, CallRel W' n j (upd v i (some (.inl op, up z)) j) := by
    intro j
    by_cases e : j = i
    · subst e
      simp only [upd_same]
      refine callRel_up (Nat.le_refl _) (by rw [hat]; simp) (fun w' h1 h2 => ?_) hs (fun _ => rfl)
      rw [hsame w' h2]; exact hoth w' h1 h2
    · rw [upd_ne _ _ e]
      refine (h.calls j).congr fun w' hw' => ?_
      by_cases e' : w' = n
      · subst e'; simp [hat, upd_ne _ _ e]
      · simp [hsame w' e']
  have hin : ∀ j, g'.mu = some j → ∃ o s, (W' n).v j = some (o, .inl s) ∧ s.holds = true := by
    intro j hj
    obtain ⟨o, s, h1, h2⟩ := hok.inv.muIn j hj
    exact ⟨o, s, by rw [hat]; exact h1, h2⟩
  have hnoc : ∀ j q p, v j = some (.inr q, .inl (.cl p)) → p = .lock ∧ g'.mu ≠ some j := by
    intro j q p hj
    have e : j ≠ i := by rintro rfl; rw [hv] at hj; simp at hj
    constructor
    · apply Classical.byContradiction
      intro hp
      have := (h.cmu j q p hj).1 hp
      rcases hm with hm | hm <;> rw [hm] at this <;> simp at this
      exact e this.symm
    · intro hg
      obtain ⟨o, s, h1, h2⟩ := hin j hg
      obtain ⟨x, hx⟩ := (hcalls j).inl (Nat.le_refl _) h1
      rw [upd_ne _ _ e, hj] at hx
      simp at hx
  have only : ∀ j, g'.mu = some j → j = i := by
    intro j hj
    apply Classical.byContradiction
    intro e
    obtain ⟨o, s, h1, h2⟩ := hin j hj
    rw [hat] at h1
    simp only [upd_ne _ _ e] at h1
    have h3 := ((h.ok n (Nat.le_refl _)).inv.mu j o s h1).1 h2
    have h4 := ((h.mu j).1 h3).1
    rcases hm with hm | hm <;> rw [hm] at h4 <;> simp at h4
    exact e h4.symm
  refine ⟨?_, ?_, ?_, ?_, ?_, ?_, ?_, ?_, ?_, hcalls⟩
  · intro w' hw'
    by_cases e : w' = n
    · subst e; rw [hat]; exact hok
    · rw [hsame w' e]; exact h.ok w' hw'
  · intro a b h1 h2
    rw [hsame a (by omega), hlo b]; exact h.apart a b h1 h2
  · rw [hnext, hat]
  · intro w' hw' e h1 h2
    rw [hlo] at h1
    by_cases e' : w' = n
    · subst e'; rw [hat] at h2 ⊢; exact hp e h1 h2
    · rw [hsame w' e'] at h2 ⊢
      rw [hpo e]
      · exact h.ptr w' hw' e h1 h2
      · have := h.apart w' n (by omega) (Nat.le_refl _); omega
  · intro w' hw'
    rw [hsame w' (by omega)]; exact h.old w' hw'
  · intro j
    rw [hat, hmu]
    refine ⟨fun hj => ⟨hj, ?_⟩, fun hj => hj.1⟩
    rw [only j hj]
    exact ⟨op, up z, by simp⟩
  · intro j q p hj
    have e : j ≠ i := by rintro rfl; simp at hj
    rw [upd_ne _ _ e] at hj
    obtain ⟨h1, h2⟩ := hnoc j q p hj
    rw [hmu]
    exact ⟨fun h => absurd h1 h, fun h => absurd h h2⟩
  · intro j hj
    rw [hmu] at hj
    obtain ⟨o, s, h1, h2⟩ := hin j hj
    obtain ⟨t, h3, _⟩ := (hcalls j).held h1 h2
    exact ⟨_, _, h3⟩
  · rw [hmu, hat]
    cases hg : g'.mu with
    | none => exact hcalm
    | some j =>
      have hj := only j hg
      subst hj
      simp only [Option.bind_some, upd_same]
      cases z <;> exact hcalm

omit [DecidableEq V] in
/-- A call with the lock writes one of the words. -/
theorem Phys.words (h : Phys M v n W) {y t : PtW K V} (hv : v i = some (.inl op, .inl y)) (hm : M.g.mu = some i) (hM : M'.g = M.g)
    (hcur : Cur M' (W n).g (W (n - 1)).g n (some (.inl op, .inl t))) (hc : CallRel W n i (some (.inl op, .inl t))) :
    Phys M' (upd v i (some (.inl op, .inl t))) n W := by
  refine ⟨h.ok, h.apart, by rw [hM]; exact h.next, fun w hw => by rw [hM]; exact h.ptr w hw, h.old, ?_, ?_, ?_, ?_, ?_⟩
  · intro j
    rw [hM, h.mu]
    by_cases e : j = i
    · subst e; simp [hv]
    · simp [upd_ne _ _ e]
  · intro j q p hj
    have e : j ≠ i := by rintro rfl; simp at hj
    rw [upd_ne _ _ e] at hj
    rw [hM]; exact h.cmu j q p hj
  · intro j hj
    rw [hM] at hj
    by_cases e : j = i
    · subst e; exact ⟨_, _, upd_same ..⟩
    · rw [upd_ne _ _ e]; exact h.held j hj
  · rw [hM, hm]; simp only [Option.bind_some, upd_same]; exact hcur
  · intro j
    by_cases e : j = i
    · subst e; simp only [upd_same]; exact hc
    · rw [upd_ne _ _ e]; exact h.calls j

omit [DecidableEq V] in
/-- A step of `Clear` in which no world ends. -/
theorem Phys.clr (h : Phys M v n W) {q : ClearOp} {p : ClPt} {x : PtW K V ⊕ Res K V} (hv : v i = some (.inr q, .inl (.cl p))) (hm : M.g.mu = none ∨ M.g.mu = some i)
    (hp : M'.g.p = M.g.p) (hnext : M'.g.next = M.g.next)
    (hx : (∃ p', x = .inl (.cl p') ∧ p' ≠ .lock ∧ M'.g.mu = some i) ∨ (∃ r, x = .inr r) ∧ M'.g.mu = none)
    (hcur : Cur M' (W n).g (W (n - 1)).g n (M'.g.mu.bind (upd v i (some (.inr q, x))))) :
    Phys M' (upd v i (some (.inr q, x))) n W := by
  have hno : ∀ j, (W n).g.mu ≠ some j := by
    intro j hj
    obtain ⟨h1, o, y, h2⟩ := (h.mu j).1 hj
    rcases hm with hm | hm <;> rw [hm] at h1 <;> simp at h1
    subst h1
    rw [hv] at h2; simp at h2
  have hmu : ∀ j, M'.g.mu = some j → j = i ∧ ∃ p', x = .inl (.cl p') ∧ p' ≠ .lock := by
    intro j hj
    rcases hx with ⟨p', h1, h2, h3⟩ | ⟨_, h3⟩ <;> rw [h3] at hj <;> simp at hj
    exact ⟨hj.symm, p', h1, h2⟩
  refine ⟨h.ok, h.apart, by rw [hnext]; exact h.next, fun w hw => by rw [hp]; exact h.ptr w hw, h.old, ?_, ?_, ?_, hcur, ?_⟩
  · intro j
    refine ⟨fun hj => absurd hj (hno j), ?_⟩
    rintro ⟨h1, o, y, h2⟩
    rw [(hmu j h1).1] at h2; simp at h2
  · intro j q' p' hj
    by_cases e : j = i
    · subst e
      simp only [upd_same, Option.some.injEq, Prod.mk.injEq] at hj
      obtain ⟨_, rfl⟩ := hj
      rcases hx with ⟨p'', h1, h2, h3⟩ | ⟨⟨r, h3⟩, _⟩
      · simp only [Sum.inl.injEq, PtW.cl.injEq] at h1
        subst h1
        exact ⟨fun _ => h3, fun _ => h2⟩
      · simp at h3
    · rw [upd_ne _ _ e] at hj
      have h1 : M.g.mu ≠ some j := by
        intro h1
        rcases hm with hm | hm <;> rw [hm] at h1 <;> simp at h1
        exact e h1.symm
      exact ⟨fun hp => absurd ((h.cmu j q' p' hj).1 hp) h1, fun hj => absurd (hmu j hj).1 e⟩
  · intro j hj
    obtain ⟨rfl, p', rfl, _⟩ := hmu j hj
    exact ⟨_, _, upd_same ..⟩
  · intro j
    by_cases e : j = i
    · subst e
      simp only [upd_same]
      have := h.calls j
      rw [hv] at this
      rcases hx with ⟨p', rfl, _⟩ | ⟨⟨r, rfl⟩, _⟩ <;> exact this
    · rw [upd_ne _ _ e]; exact h.calls j

omit [DecidableEq V] in
/-- `Clear` ends the current world. -/
theorem Phys.commit (h : Phys M v n W) {q : ClearOp} {p : ClPt} (hv : v i = some (.inr q, .inl (.cl .read))) (hp : p ≠ .lock) (hM : M'.g = M.g)
    (hcur : Cur M' (World.new M.g).g (W n).g (n + 1) (some (.inr q, .inl (.cl p)))) :
    Phys M' (upd v i (some (.inr q, .inl (.cl p)))) (n + 1) (upd W (n + 1) (World.new M.g)) := by
  have hm : M.g.mu = some i := (h.cmu i q .read hv).1 (by simp)
  have hno : ∀ j, (W n).g.mu ≠ some j := by
    intro j hj
    obtain ⟨h1, o, y, h2⟩ := (h.mu j).1 hj
    rw [hm] at h1
    simp only [Option.some.injEq] at h1
    subst h1
    rw [hv] at h2; simp at h2
  have hnh : ∀ j o s, (W n).v j = some (o, .inl s) → s.holds = false := by
    intro j o s hj
    apply Classical.byContradiction
    intro hs
    exact hno j (((h.ok n (Nat.le_refl _)).inv.mu j o s hj).1 (by simpa using hs))
  generalize hW : upd W (n + 1) (World.new M.g) = W'
  have hsame : ∀ w', w' ≤ n → W' w' = W w' := fun w' e => by rw [← hW, upd_ne _ _ (by omega)]
  have hat : W' (n + 1) = World.new M.g := by rw [← hW]; simp
  have hcall : ∀ j u, CallRel W n j u → CallRel W' (n + 1) j u := by
    intro j u h
    have hn : (∀ w, w ≤ n → (W w).v j = none) → ∀ w, w ≤ n + 1 → (W' w).v j = none := by
      intro h w hw
      by_cases e : w = n + 1
      · subst e; rw [hat]; rfl
      · rw [hsame w (by omega)]; exact h w (by omega)
    have hl : ∀ op y b, Loc W n j op y b → b = lockedX y → Loc W' (n + 1) j op y b := by
      rintro op y b ⟨w, h1, h2, h3, h4⟩ hb
      refine ⟨w, by omega, by rw [hsame w h1]; exact h2, ?_, ?_⟩
      · intro hb'
        have := h3 hb'
        subst this
        cases y with
        | inr r => rw [hb] at hb'; simp [lockedX] at hb'
        | inl s =>
          rw [hb] at hb'
          have := hnh j op s h2
          rw [lockedX, this] at hb'; simp at hb'
      · intro w' q1 q2
        by_cases e : w' = n + 1
        · subst e; rw [hat]; exact Or.inl rfl
        · rw [hsame w' (by omega)]; exact h4 w' (by omega) q2
    unfold CallRel at h ⊢
    split at h <;> first
      | exact hn h
      | exact ⟨h.1, hl _ _ _ h.2 rfl⟩
      | (refine ⟨h.1, hl _ _ _ h.2 ?_⟩; rw [h.1]; rfl)
      | exact h.imp (fun h => hl _ _ _ h rfl) (fun h => ⟨h.1, hn h.2⟩)
      | exact h
      | (intro w hw
         by_cases e : w = n + 1
         · subst e; rw [hat]; exact Or.inl rfl
         · rw [hsame w (by omega)]; exact h w (by omega))
  refine ⟨?_, ?_, ?_, ?_, ?_, ?_, ?_, ?_, ?_, ?_⟩
  · intro w hw
    by_cases e : w = n + 1
    · subst e; rw [hat]; exact World.new_ok _
    · rw [hsame w (by omega)]; exact h.ok w (by omega)
  · intro a b h1 h2
    rw [hsame a (by omega)]
    by_cases e : b = n + 1
    · subst e
      rw [hat]
      show (W a).g.next ≤ M.g.next
      rw [h.next]
      by_cases e : a = n
      · subst e; exact Nat.le_refl _
      · exact Nat.le_trans (h.apart a n (by omega) (Nat.le_refl _)) (h.ok n (Nat.le_refl _)).lo
    · rw [hsame b (by omega)]; exact h.apart a b h1 (by omega)
  · rw [hM, hat]; rfl
  · intro w hw e h1 h2
    rw [hM]
    by_cases e' : w = n + 1
    · subst e'; rw [hat]; rfl
    · rw [hsame w (by omega)] at h1 h2 ⊢; exact h.ptr w (by omega) e h1 h2
  · intro w hw
    rw [hsame w (by omega)]
    by_cases e : w = n
    · subst e
      cases hg : (W w).g.mu with
      | none => rfl
      | some j => exact absurd hg (hno j)
    · exact h.old w (by omega)
  · intro j
    rw [hat, hM, hm]
    refine ⟨fun hj => ?_, ?_⟩
    · simp [World.new, G.cleared] at hj
    · rintro ⟨h1, o, y, h2⟩
      simp only [Option.some.injEq] at h1
      subst h1
      simp at h2
  · intro j q' p' hj
    rw [hM]
    by_cases e : j = i
    · subst e
      simp only [upd_same, Option.some.injEq, Prod.mk.injEq, Sum.inl.injEq, PtW.cl.injEq] at hj
      rw [← hj.2]
      exact ⟨fun _ => hm, fun _ => hp⟩
    · rw [upd_ne _ _ e] at hj; exact h.cmu j q' p' hj
  · intro j hj
    rw [hM] at hj
    by_cases e : j = i
    · subst e; exact ⟨_, _, upd_same ..⟩
    · rw [upd_ne _ _ e]; exact h.held j hj
  · rw [hM, hm, hat]
    simp only [Option.bind_some, upd_same, Nat.add_sub_cancel]
    rw [hsame n (Nat.le_refl _)]
    exact hcur
  · intro j
    by_cases e : j = i
    · subst e
      simp only [upd_same]
      have := hcall j _ (h.calls j)
      rw [hv] at this
      exact this
    · rw [upd_ne _ _ e]; exact hcall j _ (h.calls j)

omit [DecidableEq V] in
theorem Phys.invoke (h : Phys M v n W) {o : Op K V ⊕ ClearOp} (hv : v i = none) :
    Phys M (upd v i (some (o, .inl (match o with | .inl _ => .typ | .inr _ => .cl .lock)))) n W := by
  have hm : M.g.mu ≠ some i := by
    intro hm
    obtain ⟨o, s, h1⟩ := h.held i hm
    rw [hv] at h1; simp at h1
  have hnone : ∀ w, w ≤ n → (W w).v i = none := by have := h.calls i; rw [hv] at this; exact this
  refine ⟨h.ok, h.apart, h.next, h.ptr, h.old, ?_, ?_, ?_, ?_, ?_⟩
  · intro j
    by_cases e : j = i
    · subst e; rw [h.mu]; simp [hm]
    · rw [h.mu]; simp [upd_ne _ _ e]
  · intro j q p hj
    by_cases e : j = i
    · subst e
      simp only [upd_same, Option.some.injEq, Prod.mk.injEq, Sum.inl.injEq] at hj
      obtain ⟨rfl, h2⟩ := hj
      simp only [PtW.cl.injEq] at h2
      rw [← h2]
      simp [hm]
    · rw [upd_ne _ _ e] at hj; exact h.cmu j q p hj
  · intro j hj
    have e : j ≠ i := by rintro rfl; exact hm hj
    rw [upd_ne _ _ e]; exact h.held j hj
  · rw [bind_upd (Cur M (W n).g (W (n - 1)).g n) hm]; exact h.cur
  · intro j
    by_cases e : j = i
    · subst e; simp only [upd_same]; cases o <;> exact hnone
    · rw [upd_ne _ _ e]; exact h.calls j

omit [DecidableEq V] in
/-- A call returns in a world. -/
theorem Phys.ret (h : Phys M v n W) {gh' : Gh K V} (hok : World.Ok ⟨(W w).g, (W w).v, gh', (W w).lo⟩) :
    Phys M v n (upd W w ⟨(W w).g, (W w).v, gh', (W w).lo⟩) := by
  generalize hW : upd W w ⟨(W w).g, (W w).v, gh', (W w).lo⟩ = W'
  have hg : ∀ w', (W' w').g = (W w').g ∧ (W' w').v = (W w').v ∧ (W' w').lo = (W w').lo := by
    intro w'
    rw [← hW]
    by_cases e : w' = w
    · subst e; simp
    · simp [upd_ne _ _ e]
  refine ⟨?_, ?_, ?_, ?_, ?_, ?_, h.cmu, h.held, ?_, ?_⟩
  · intro w' hw'
    rw [← hW]
    by_cases e : w' = w
    · subst e; simp only [upd_same]; exact hok
    · rw [upd_ne _ _ e]; exact h.ok w' hw'
  · intro a b h1 h2; rw [(hg a).1, (hg b).2.2]; exact h.apart a b h1 h2
  · rw [(hg n).1]; exact h.next
  · intro w' hw'; rw [(hg w').1, (hg w').2.2]; exact h.ptr w' hw'
  · intro w' hw'; rw [(hg w').1]; exact h.old w' hw'
  · intro j; rw [(hg n).1]; exact h.mu j
  · rw [(hg n).1, (hg (n - 1)).1]; exact h.cur
  · intro j; exact (h.calls j).congr fun w' _ => by rw [(hg w').2.1]

end

/-! ## Single steps -/

section
variable {g g' : G K V} {i c : Nat} {op : Op K V} {s : Pt K V} {x : Pt K V ⊕ Res K V}

omit [DecidableEq V] in
theorem start_start : startStep g op ≠ .inl .start := by
  cases op <;> simp only [startStep] <;> (repeat' split) <;> simp

omit [DecidableEq V] in
theorem start_locked : lockedX (startStep g op) = false := by
  cases op <;> simp only [startStep] <;> (repeat' split) <;> simp [lockedX, Pt.holds]

omit [DecidableEq V] in
theorem start_congr {h : G K V} (h1 : g.read = h.read) (h2 : g.amended = h.amended) : startStep g op = startStep h op := by
  cases op <;> simp only [startStep, h1, h2]

omit [DecidableEq K] [DecidableEq V] in
theorem decide_start {m : Mode} {e : Nat} {p : Ptr V} {d : Dec K V} : decide' op m e p d ≠ .inl .start := by
  cases d <;> simp only [decide', after] <;> (repeat' split) <;> simp

omit [DecidableEq K] [DecidableEq V] in
theorem go_start {k : Cont K V} : k.go ≠ .inl .start := by cases k <;> simp [Cont.go]

theorem step_start (hst : step g i op s c = some (g', x)) : x ≠ .inl .start := by
  cases s with
  | start => simp only [step, Option.some.injEq, Prod.mk.injEq] at hst; rw [← hst.2]; exact start_start
  | tryLoad m e => simp only [step, Option.some.injEq, Prod.mk.injEq] at hst; rw [← hst.2]; exact decide_start
  | reload m e y => simp only [step, Option.some.injEq, Prod.mk.injEq] at hst; rw [← hst.2]; exact decide_start
  | unlock k => simp only [step, Option.some.injEq, Prod.mk.injEq] at hst; rw [← hst.2]; exact go_start
  | locked =>
    simp only [step, Option.some.injEq, Prod.mk.injEq] at hst; rw [← hst.2]
    cases op <;> simp only [lockedStep] <;> (repeat' split) <;> simp
  | amend rm =>
    simp only [step] at hst
    cases op <;> simp only [afterAmend, Option.some.injEq, Prod.mk.injEq, reduceCtorEq] at hst <;> rw [← hst.2] <;> simp
  | unexp e =>
    simp only [step] at hst
    (repeat' split at hst) <;> simp only [Option.some.injEq, Prod.mk.injEq, reduceCtorEq] at hst <;> rw [← hst.2] <;>
      first | (simp; done) | (simp only [afterUnexp]; split <;> simp)
  | miss k =>
    simp only [step, Option.some.injEq, Prod.mk.injEq] at hst; rw [← hst.2]; split <;> simp
  | icall todo vis k v =>
    simp only [step] at hst
    cases op <;> simp only [Option.some.injEq, Prod.mk.injEq, reduceCtorEq] at hst
    rw [← hst.2]; split <;> simp
  | cas m e p y =>
    simp only [step] at hst
    split at hst <;> simp only [Option.some.injEq, Prod.mk.injEq] at hst <;> rw [← hst.2] <;>
      first | (simp; done) | (simp only [after]; split <;> simp)
  | _ =>
    simp only [step] at hst
    (repeat' split at hst) <;> simp only [Option.some.injEq, Prod.mk.injEq, reduceCtorEq] at hst <;> rw [← hst.2] <;> simp

/-- Other entries are left alone. -/
theorem step_ptr (hst : step g i op s c = some (g', x)) {e : Nat} (he : e ∉ ents s) (hn : e < g.next) : g'.p e = g.p e := by
  have set : ∀ e' y, e' ∈ ents s → upd g.p e' y e = g.p e := fun e' y h => upd_ne _ _ (fun h' => he (by rw [h']; exact h))
  cases s with
  | locked =>
    simp only [step, Option.some.injEq, Prod.mk.injEq] at hst; rw [← hst.1]
    cases op <;> simp only [lockedStep] <;> (repeat' split) <;> rfl
  | add v =>
    simp only [step, G.setDirty] at hst
    cases hk : op.key? with
    | none => simp [hk] at hst
    | some k =>
      simp only [hk] at hst
      cases hd : g.dirty <;> simp only [hd, Option.some.injEq, Prod.mk.injEq] at hst <;> rw [← hst.1]
      exact upd_ne _ _ (by omega)
  | _ =>
    simp only [step, G.setDirty, G.setP, G.promoted] at hst
    (repeat' split at hst) <;> simp only [Option.some.injEq, Prod.mk.injEq, reduceCtorEq] at hst <;> obtain ⟨rfl, rfl⟩ := hst <;> first
      | rfl
      | exact set _ _ (by simp [ents])
      | (rename_i h; split at h <;> simp only [Option.some.injEq, reduceCtorEq] at h; subst h; first | rfl | exact set _ _ (by simp [ents]))

/-- Only `m.read.Store` changes the contents of `m.read`. -/
theorem step_words (hst : step g i op s c = some (g', x)) (hs : stores s = false) : g'.read = g.read ∧ g'.amended = g.amended := by
  cases s with
  | locked =>
    simp only [step, Option.some.injEq, Prod.mk.injEq] at hst; rw [← hst.1]
    cases op <;> simp only [lockedStep] <;> (repeat' split) <;> first | exact ⟨rfl, rfl⟩ | exact ⟨trivial, trivial⟩
  | promote k => simp [stores] at hs
  | rpromote => simp [stores] at hs
  | amend rm => simp [stores] at hs
  | _ =>
    simp only [step, G.setDirty, G.setP] at hst
    (repeat' split at hst) <;> simp only [Option.some.injEq, Prod.mk.injEq, reduceCtorEq] at hst <;> obtain ⟨rfl, rfl⟩ := hst <;> first
      | exact ⟨rfl, rfl⟩
      | (rename_i h; split at h <;> simp only [Option.some.injEq, reduceCtorEq] at h; subst h; exact ⟨rfl, rfl⟩)

end

/-! ## Overlapping calls -/

section
variable {M M' : GW K V} {v : VwW K V} {H : HW K V} {n i j : Nat} {W : Nat → World K V} {Hp : Nat → HW K V} {cl : Nat → Nat} {o : Op K V ⊕ ClearOp}

omit [DecidableEq K] [DecidableEq V] in
theorem overlapped_pending (h : Hst v H n W Hp cl) {s t : PtW K V} {q : ClearOp} (hi : v i = some (o, .inl s)) (hj : v j = some (.inr q, .inl t)) : Overlapped H i :=
  ⟨j, by cases q; exact (h.inv j _).2 ⟨_, hj⟩, fun hb => h.pending hj (before_mem hb).1, fun hb => h.pending hi (before_mem hb).1⟩

omit [DecidableEq K] [DecidableEq V] in
theorem Overlapped.append (h : Overlapped H i) (hi : HasInv H i) {e : Ev (Op K V ⊕ ClearOp) (Res K V)} (he : ∀ i op, e = .inv i op → ¬ HasInv H i) :
    Overlapped (H ++ [e]) i := by
  obtain ⟨j, h1, h2, h3⟩ := h
  have no : ∀ k, HasInv H k → ¬ HasInv [e] k := by
    rintro k hk ⟨op, ho⟩
    simp only [List.mem_singleton] at ho
    exact he k op ho.symm hk
  exact ⟨j, List.mem_append_left _ h1, fun hb => h2 (before_left hb (no i hi)), fun hb => h3 (before_left hb (no j ⟨_, h1⟩))⟩

omit [DecidableEq K] [DecidableEq V] in
theorem Torn.step (h : Torn M v H n Hp) {x : PtW K V ⊕ Res K V} (hx : x ≠ .inl (.cl .data))
    (hdata : x = .inl .data → (∀ j o, v j ≠ some (o, .inl (.cl .data))) ∧ ((M'.typ = .readOnly ∧ M'.data ≠ none) ∨ Overlapped H i))
    (hseen : M.typ = .readOnly → M.data ≠ none → M'.typ = .readOnly ∧ M'.data ≠ none) (hpan : x = .inr .panic → Overlapped H i) :
    Torn M' (upd v i (some (o, x))) H n Hp := by
  refine ⟨?_, ?_, ?_⟩
  · intro j q hj k op hk
    have hji : j ≠ i := by
      rintro rfl
      simp only [upd_same, Option.some.injEq, Prod.mk.injEq] at hj
      exact hx hj.2
    rw [upd_ne _ _ hji] at hj
    have hki : k ≠ i := by
      rintro rfl
      simp only [upd_same, Option.some.injEq, Prod.mk.injEq] at hk
      exact (hdata hk.2).1 j q hj
    rw [upd_ne _ _ hki] at hk
    exact h.stale j q hj k op hk
  · intro k op hk
    by_cases e : k = i
    · subst e
      simp only [upd_same, Option.some.injEq, Prod.mk.injEq] at hk
      exact (hdata hk.2).2
    · rw [upd_ne _ _ e] at hk
      exact (h.seen k op hk).imp (fun h => hseen h.1 h.2) id
  · intro k q hk
    by_cases e : k = i
    · subst e
      simp only [upd_same, Option.some.injEq, Prod.mk.injEq] at hk
      exact hpan hk.2
    · rw [upd_ne _ _ e] at hk
      exact h.panic k q hk

omit [DecidableEq K] [DecidableEq V] in
theorem Torn.commit (h : Torn M v H n Hp) (hs : Hst v H n W Hp cl) {q : ClearOp} {s x : PtW K V} (hv : v i = some (.inr q, .inl s)) :
    Torn M' (upd v i (some (.inr q, .inl x))) H (n + 1) (upd Hp (n + 1) H) := by
  have hd : ∀ k op, upd v i (some (.inr q, .inl x)) k = some (.inl op, .inl .data) → v k = some (.inl op, .inl .data) := by
    intro k op hk
    by_cases e : k = i
    · subst e; simp at hk
    · rw [upd_ne _ _ e] at hk; exact hk
  refine ⟨?_, ?_, ?_⟩
  · intro j o hj k op hk
    simp only [upd_same]
    exact ⟨_, (hs.inv k _).2 ⟨_, hd k op hk⟩⟩
  · intro k op hk
    exact Or.inr (overlapped_pending hs (hd k op hk) hv)
  · intro k o hk
    by_cases e : k = i
    · subst e; simp at hk
    · rw [upd_ne _ _ e] at hk; exact h.panic k o hk

omit [DecidableEq K] [DecidableEq V] in
theorem Torn.invoke (h : Torn M v H n Hp) (hs : Hst v H n W Hp cl) {o : Op K V ⊕ ClearOp} {x : PtW K V} (hv : v i = none) (h1 : x ≠ .data) (h2 : x ≠ .cl .data) :
    Torn M (upd v i (some (o, .inl x))) (H ++ [.inv i o]) n Hp := by
  have fresh : ∀ k op, (Ev.inv i o : Ev (Op K V ⊕ ClearOp) (Res K V)) = .inv k op → ¬ HasInv H k := by
    rintro k op e ⟨o', ho⟩
    simp only [Ev.inv.injEq] at e
    obtain ⟨y, hy⟩ := (hs.inv k o').1 ho
    rw [← e.1, hv] at hy; simp at hy
  refine ⟨?_, ?_, ?_⟩
  · intro j q hj k op hk
    have e : j ≠ i := by rintro rfl; simp at hj; exact h2 hj.2
    have e' : k ≠ i := by rintro rfl; simp at hk; exact h1 hk.2
    rw [upd_ne _ _ e] at hj
    rw [upd_ne _ _ e'] at hk
    exact h.stale j q hj k op hk
  · intro k op hk
    have e' : k ≠ i := by rintro rfl; simp at hk; exact h1 hk.2
    rw [upd_ne _ _ e'] at hk
    exact (h.seen k op hk).imp id fun h => h.append ⟨_, (hs.inv k _).2 ⟨_, hk⟩⟩ fresh
  · intro k q hk
    have e' : k ≠ i := by rintro rfl; simp at hk
    rw [upd_ne _ _ e'] at hk
    exact (h.panic k q hk).append ⟨_, (hs.inv k _).2 ⟨_, hk⟩⟩ fresh

omit [DecidableEq K] [DecidableEq V] in
theorem Torn.ret (h : Torn M v H n Hp) (hs : Hst v H n W Hp cl) (r : Res K V) : Torn M v (H ++ [.ret i r]) n Hp := by
  refine ⟨h.stale, ?_, ?_⟩
  · intro k op hk
    exact (h.seen k op hk).imp id fun h => h.append ⟨_, (hs.inv k _).2 ⟨_, hk⟩⟩ (by simp)
  · intro k q hk
    exact (h.panic k q hk).append ⟨_, (hs.inv k _).2 ⟨_, hk⟩⟩ (by simp)

end

end Verif.XSync.MapWords

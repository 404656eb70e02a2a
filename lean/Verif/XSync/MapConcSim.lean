import Verif.XSync.MapConcInv
/-! # Simulation of the concurrent map: the steps of the program -/
namespace Verif.XSync.MapConc
open Verif.Conc Verif.Go

variable {K V : Type} [DecidableEq K]

/-! ## Effects on the contents -/

section
variable {a : A K V} {m : Option (List (K × Nat))}

theorem live_key (hi : GI a m) {k : K} {e : Nat} (h : a.Live k e) : a.key e = some k := h.elim (hi.keyR k e) (fun h => hi.keyD k e h.2)

theorem abs_setP (hi : GI a m) {k : K} {e : Nat} (h : a.Live k e) (x : Ptr V) :
    A.abs { a with p := upd a.p e x } = M.put a.abs k x.get? := by
  funext k'
  by_cases hk : k' = k
  · subst hk
    have hl : A.Live { a with p := upd a.p e x } k' e := h
    rw [abs_live hl]; simp [M.put]
  · have h1 := hi.keyR k'
    have h2 := hi.keyD k'
    have h3 := live_key hi h
    simp only [M.put, hk, if_false, A.abs, upd]
    cases hr : a.rd k' with
    | some e' => simp only; rw [if_neg]; rintro rfl; have := h1 _ hr; rw [h3] at this; simp at this; exact hk this.symm
    | none =>
      cases hd : a.dt k' with
      | none => rfl
      | some e' => simp only; rw [if_neg]; rintro rfl; have := h2 _ hd; rw [h3] at this; simp at this; exact hk this.symm

theorem abs_orphan (hi : GI a m) {k : K} {e : Nat} (h : a.Orphan k e) (x : Ptr V) : A.abs { a with p := upd a.p e x } = a.abs := by
  funext k'
  have h1 := hi.keyR k'
  have h2 := hi.keyD k'
  obtain ⟨h3, h4, h5⟩ := h
  simp only [A.abs, upd]
  cases hr : a.rd k' with
  | some e' => simp only; rw [if_neg]; rintro rfl; have := h1 _ hr; rw [h3] at this; simp at this; subst this; exact h4 hr
  | none =>
    cases hd : a.dt k' with
    | none => rfl
    | some e' => simp only; rw [if_neg]; rintro rfl; have := h2 _ hd; rw [h3] at this; simp at this; subst this; exact h5 hd

/-- Changes of `dirty` for keys in `read` do not matter. -/
theorem abs_dt (dt : K → Option Nat) (hb am : Bool) (h : ∀ k, a.rd k = none → dt k = a.dt k) :
    A.abs { a with dt := dt, has := hb, am := am } = a.abs := by
  funext k
  simp only [A.abs]
  cases hr : a.rd k with
  | some e => rfl
  | none => simp [h k hr]

theorem abs_none (hi : GI a m) {k : K} (h : a.rd k = none) (ham : a.am = false) : a.dt k = none ∧ a.abs k = none := by
  cases hd : a.dt k with
  | none => exact ⟨rfl, by simp [A.abs, h, hd]⟩
  | some e => have := (hi.priv k e hd h).1; rw [ham] at this; simp at this

theorem abs_none' {k : K} (h : a.rd k = none) (hd : a.dt k = none) : a.abs k = none := by simp [A.abs, h, hd]

theorem abs_promote (hi : GI a none) (hh : a.has = true) :
    A.abs { a with rd := a.dt, dt := fun _ => none, has := false, am := false } = a.abs := by
  funext k
  simp only [A.abs]
  cases hr : a.rd k with
  | none => cases hd : a.dt k <;> rfl
  | some e =>
    rcases hi.cover k e hh hr with ⟨h1, _⟩ | ⟨h1, h2⟩ | ⟨_, _, l, h, _⟩
    · simp [h1]
    · simp [h1, h2, Ptr.get?]
    · simp at h

end

/-! ## Building the invariant after a step -/

/-- Abbreviation. -/
abbrev Out (g : G K V) (v : Vw K V) (gh : Gh K V) (i : Nat) (op : Op K V) (g' : G K V) (x : Pt K V ⊕ Res K V) : Prop :=
  I g' (upd v i (some (op, x))) gh ∨
    ∃ r s', gh.st i = .invoked op ∧ mapSpec.step gh.cur op r s' ∧ I g' (upd v i (some (op, x))) (gh.commit i op r s')

section
variable {g g' : G K V} {v : Vw K V} {gh : Gh K V} {i : Nat} {op : Op K V} {s : Pt K V} {x : Pt K V ⊕ Res K V}

/-- The entries and keys are as before. -/
structure Keep (g g' : G K V) : Prop where
  fresh : ∀ e, g'.next ≤ e → g'.key e = none
  wfR : g'.read.WF
  wfD : (g'.dirty.getD []).WF

theorem I.keep {v : Vw K V} {gh : Gh K V} (hI : I g v gh) (h1 : g'.next = g.next) (h2 : g'.key = g.key) (h3 : g'.read = g.read)
    (h4 : g'.dirty = g.dirty) : Keep g g' := ⟨by rw [h1, h2]; exact hI.fresh, by rw [h3]; exact hI.wfR, by rw [h4]; exact hI.wfD⟩

theorem quiet_frame {d : Option Nat} (hg : GReach mapSpec gh) (hI : I g v gh) (habs : g'.a.abs = g.a.abs) (hk : Keep g g')
    (hdrop : ∀ e, d = some e → s.delE = some e ∧ Committed gh i) (hnew : New g' gh i op x)
    (hown : ∀ e, delX x = some e → Committed gh i → s.delE = some e) : Frame g gh i op s d g' gh x :=
  ⟨hg, hg, fun _ _ => rfl, fun j => .refl gh j, by rw [habs]; exact hI.cur, hdrop, hk.fresh, hk.wfR, hk.wfD, hnew,
    fun e h1 h2 => Or.inl ⟨hown e h1 h2, h2⟩⟩

theorem commit_reach (hg : GReach mapSpec gh) {r : Res K V} {s' : M K V} (hst : gh.st i = .invoked op) (hsp : mapSpec.step gh.cur op r s') :
    GReach mapSpec (gh.commit i op r s') := .step hg (.commit _ i op r s' hst hsp)

theorem commit_cur (r : Res K V) (s' : M K V) : (gh.commit i op r s').cur = s' := by simp [Ghost.commit, Ghost.cur]

theorem commit_frame (hg : GReach mapSpec gh) {r : Res K V} (hst : gh.st i = .invoked op) (hsp : mapSpec.step gh.cur op r g'.a.abs)
    (hk : Keep g g') (hnew : New g' (gh.commit i op r g'.a.abs) i op x) (hown : ∀ e, delX x = some e → ∃ k, g.a.Live k e) :
    Frame g gh i op s none g' (gh.commit i op r g'.a.abs) x :=
  ⟨hg, commit_reach hg hst hsp, fun j hj => by simp [Ghost.commit, upd_ne _ _ hj], ext_commit hg i op r _, commit_cur _ _,
    by simp, hk.fresh, hk.wfR, hk.wfD, hnew, fun e h1 _ => Or.inr (hown e h1)⟩

theorem not_committed (h : gh.st i = .invoked op) : ¬ Committed gh i := by
  rintro ⟨o, r, h'⟩; rw [h] at h'; simp at h'

/-- A decided result that changes nothing. -/
theorem fin_now (hg : GReach mapSpec gh) (hI : I g v gh) {r : Res K V} (hst : gh.st i = .invoked op) (hd : Does g.a.abs op r g.a.abs)
    (hr : ResOk (saw gh i) (pre gh i) op r) : Fin' gh i op r := by
  refine ⟨Or.inr (Or.inl ⟨hst, gh.log.length, inst_now hg (by simp [hst]), ?_⟩), hr⟩
  have := hI.cur
  unfold Ghost.cur at this
  rw [this]; exact hd

theorem fin_commit {r : Res K V} {s' : M K V} (hr : ResOk (saw (gh.commit i op r s') i) (pre (gh.commit i op r s') i) op r) : Fin' (gh.commit i op r s') i op r :=
  ⟨Or.inl (by simp [Ghost.commit]), hr⟩

theorem pre_commit (hg : GReach mapSpec gh) {k : K} {w : V} {r : Res K V} {s' : M K V} (h : saw gh i k (some w)) :
    pre (gh.commit i op r s') i k w := by
  obtain ⟨j, h6, h7⟩ := h
  have h8 := (ext_commit hg i op r s' i).1 j h6
  exact ⟨gh.log.length, j, op, r, by simp [Ghost.commit], h8.1, inst_le hg h6, by rw [h8.2, h7]⟩

theorem now (hg : GReach mapSpec gh) (hI : I g v gh) (hst : gh.st i ≠ .done) (k : K) : saw gh i k (g.a.abs k) := by
  rw [← hI.cur]; exact saw_now hg hst k

theorem put_same {s : M K V} {k : K} {x : Option V} (h : s k = x) : s.put k x = s := by
  funext k'
  by_cases hk : k' = k
  · subst hk; simp [M.put, h]
  · simp [M.put, hk]

end

end Verif.XSync.MapConc

import Verif.XSync.MapCost
import Mathlib.Data.List.Dedup
/-! # The work of the concurrent map: the counter of misses -/
namespace Verif.XSync.MapConc
open Verif.Conc Verif.Go

variable {K V : Type} [DecidableEq K] [DecidableEq V]

/-! ## Lengths -/

theorem del_length {A : Type} {m : GMap K A} (hn : m.WF) (k : K) : m.length ≤ (m.del k).length + 1 := by
  induction m with
  | nil => simp
  | cons x m ih =>
    obtain ⟨k', a⟩ := x
    simp only [GMap.WF, List.map_cons, List.nodup_cons] at hn
    by_cases hk : k' = k
    · subst hk
      have : GMap.del m k' = m := by
        apply List.filter_eq_self.2
        intro y hy
        simp only [ne_eq, decide_not, Bool.not_eq_eq_eq_not, Bool.not_true, decide_eq_false_iff_not]
        rintro rfl
        exact hn.1 (List.mem_map.2 ⟨y, hy, rfl⟩)
      have h2 : GMap.del ((k', a) :: m) k' = GMap.del m k' := by simp [GMap.del]
      rw [h2, this]; simp
    · have h2 : GMap.del ((k', a) :: m) k = (k', a) :: GMap.del m k := by simp [GMap.del, hk]
      rw [h2]
      have := ih hn.2
      simp only [List.length_cons]; omega

theorem set_length {A : Type} {m : GMap K A} (hn : m.WF) (k : K) (a : A) : m.length ≤ (m.set k a).length := by
  have := del_length hn k
  simpa [GMap.set] using this

omit [DecidableEq V] in
theorem setDirty_length {g g' : G K V} {k : K} {e : Nat} (hw : (g.dirty.getD []).WF) (h : g.setDirty k e = some g') :
    (g.dirty.getD []).length ≤ (g'.dirty.getD []).length ∧ g'.misses = g.misses ∧ g'.amended = g.amended := by
  unfold G.setDirty at h
  split at h <;> simp at h
  subst h
  rename_i hd
  simp [hd] at hw ⊢
  exact set_length hw k e

/-! ## The counter -/

/-- The counter is below the number of entries of `m.dirty`, whenever it is not just being changed. -/
def Q (g : G K V) : Prop := (g.amended = false → g.misses = 0) ∧ (g.amended = true → g.misses < max 1 (g.dirty.getD []).length)

/-- What the holder of the lock knows about the counter. -/
def Jl (g : G K V) (B : Nat) : Pt K V → Prop
  | .miss _ => g.misses < B ∧ g.amended = true
  | .promote _ => g.misses ≤ B ∧ g.amended = true ∧ (g.dirty.getD []).length ≤ g.misses
  | _ => Q g

/-- Proof only: part of an invariant or simulation; models no code. -/
def Jx (g : G K V) (B : Nat) : Pt K V ⊕ Res K V → Prop
  | .inl s => Jl g B s
  | .inr _ => Q g

omit [DecidableEq K] [DecidableEq V] in
theorem Q.grow {g g' : G K V} (h : Q g) (h1 : g'.misses = g.misses) (h2 : g'.amended = g.amended)
    (h3 : (g.dirty.getD []).length ≤ (g'.dirty.getD []).length) : Q g' := by
  refine ⟨fun h4 => by rw [h1]; exact h.1 (h2 ▸ h4), fun h4 => ?_⟩
  have := h.2 (h2 ▸ h4)
  rw [h1]; omega

omit [DecidableEq K] [DecidableEq V] in
theorem Q.low {g : G K V} (h : Q g) {B : Nat} (hB : max 1 (g.dirty.getD []).length ≤ B) (ha : g.amended = true) : g.misses < B :=
  Nat.lt_of_lt_of_le (h.2 ha) hB

omit [DecidableEq K] [DecidableEq V] in
theorem jx_after {g : G K V} {B : Nat} (h : Q g) (hB : max 1 (g.dirty.getD []).length ≤ B) (m : Mode) (r : Res K V)
    (hm : m = .inDirty → g.amended = true) : Jx g B (after m r) := by
  cases m
  · exact h
  · exact h
  · exact ⟨h.low hB (hm rfl), hm rfl⟩

omit [DecidableEq K] [DecidableEq V] in
theorem jx_decide {g : G K V} {B : Nat} (h : Q g) (hB : max 1 (g.dirty.getD []).length ≤ B) (op : Op K V) (m : Mode) (e : Nat) (p : Ptr V)
    (d : Dec K V) (hm : m = .inDirty → g.amended = true) : Jx g B (decide' op m e p d) := by
  cases d with
  | fail => cases m <;> first | exact h | exact jx_after h hB _ _ hm
  | done r => exact jx_after h hB _ _ hm
  | cas x => exact h
  | call => exact h

omit [DecidableEq V] in
theorem jl_locked {g : G K V} {B : Nat} (h : Q g) (hB : max 1 (g.dirty.getD []).length ≤ B)
    (op : Op K V) : Jl (lockedStep g op).1 B (lockedStep g op).2 := by
  cases op with
  | load k =>
    simp only [lockedStep]
    split
    · exact h
    · split
      · split <;> exact ⟨h.low hB (by assumption), by assumption⟩
      · exact h
  | store k v => simp only [lockedStep]; split <;> (try split) <;> (try split) <;> exact h
  | loadOrStore k v => simp only [lockedStep]; split <;> (try split) <;> (try split) <;> exact h
  | computeIfAbsent k v => simp only [lockedStep]; split <;> (try split) <;> (try split) <;> exact h
  | computeIfPresent k v => simp only [lockedStep]; split <;> (try split) <;> exact h
  | range f => simp only [lockedStep]; split <;> exact h
  | loadAndDelete k =>
    simp only [lockedStep]
    split
    · exact h
    · split
      · split <;> exact ⟨h.low hB (by assumption), by assumption⟩
      · exact h
  | delete k =>
    simp only [lockedStep]
    split
    · exact h
    · split
      · split <;> exact ⟨h.low hB (by assumption), by assumption⟩
      · exact h

/-- A step without the lock changes nothing of `m.read`, `m.dirty` and `m.misses`. -/
theorem step_free {g g' : G K V} {i c : Nat} {op : Op K V} {s : Pt K V} {x : Pt K V ⊕ Res K V} (hs : s.holds = false)
    (h : step g i op s c = some (g', x)) : g'.misses = g.misses ∧ g'.amended = g.amended ∧ g'.dirty = g.dirty ∧ g'.read = g.read := by
  cases s <;> simp only [Pt.holds, Bool.true_eq_false] at hs <;> simp only [step] at h
  all_goals (repeat' split at h)
  all_goals first
    | (simp only [Option.some.injEq, Prod.mk.injEq, reduceCtorEq] at h; obtain ⟨rfl, rfl⟩ := h; exact ⟨rfl, rfl, rfl, rfl⟩)
    | simp at h

omit [DecidableEq K] [DecidableEq V] in
theorem free_decide (op : Op K V) (e : Nat) (p : Ptr V) (d : Dec K V) : lockedX (decide' op .free e p d) = false := by
  cases d <;> rfl

/-- Only `m.mu.Lock()` leads to a point with the lock. -/
theorem step_unlocked {g g' : G K V} {i c : Nat} {op : Op K V} {s : Pt K V} {x : Pt K V ⊕ Res K V} (hs : s.holds = false)
    (h : step g i op s c = some (g', x)) (hl : s ≠ .lock) : lockedX x = false := by
  have hm : ∀ m : Mode, (m != .free) = false → m = .free := by intro m; cases m <;> simp
  cases s <;> simp only [Pt.holds, Bool.true_eq_false] at hs
  case lock => exact absurd rfl hl
  case start =>
    simp only [step, Option.some.injEq, Prod.mk.injEq] at h
    obtain ⟨rfl, rfl⟩ := h
    cases op <;> simp only [startStep] <;> (try split) <;> (try split) <;> rfl
  case tryLoad m e =>
    rw [hm m hs] at h
    simp only [step, Option.some.injEq, Prod.mk.injEq] at h
    obtain ⟨rfl, rfl⟩ := h
    exact free_decide ..
  case reload m e _ =>
    rw [hm m hs] at h
    simp only [step, Option.some.injEq, Prod.mk.injEq] at h
    obtain ⟨rfl, rfl⟩ := h
    exact free_decide ..
  case call m e p =>
    rw [hm m hs] at h
    simp only [step] at h
    split at h <;> simp at h
    obtain ⟨rfl, rfl⟩ := h
    rfl
  case cas m e p _ =>
    rw [hm m hs] at h
    simp only [step] at h
    split at h <;> simp at h <;> obtain ⟨rfl, rfl⟩ := h <;> rfl
  all_goals simp only [step] at h
  all_goals (repeat' split at h)
  all_goals first
    | (simp only [Option.some.injEq, Prod.mk.injEq, reduceCtorEq] at h; obtain ⟨rfl, rfl⟩ := h; rfl)
    | (simp only [Option.some.injEq, Prod.mk.injEq, reduceCtorEq] at h; obtain ⟨rfl, rfl⟩ := h; split <;> rfl)
    | simp at h

/-- A step of the holder of the lock. -/
theorem step_jx {g g' : G K V} {i c : Nat} {op : Op K V} {s : Pt K V} {x : Pt K V ⊕ Res K V} {B : Nat} (hs : s.holds = true) (hJ : Jl g B s)
    (hB : max 1 (g.dirty.getD []).length ≤ B) (hw : (g.dirty.getD []).WF) (hL : LLoc g op s)
    (hd : ∀ k, g.read.get k = none → ∀ e, g.dirtyGet k = some e → g.amended = true) (ham : ∀ rm, s = .amend rm → g.amended = false)
    (hb0 : ∀ rm, s = .build0 rm → g.amended = false)
    (h : step g i op s c = some (g', x)) : Jx g' B x := by
  have hE : ∀ e, LEnt g.a op .inDirty e → g.amended = true := by
    rintro e ⟨k, -, h2, h3⟩
    exact hd k h2 e h3
  cases s with
  | start => simp [Pt.holds] at hs
  | eload => simp [Pt.holds] at hs
  | del => simp [Pt.holds] at hs
  | delCas => simp [Pt.holds] at hs
  | iter => simp [Pt.holds] at hs
  | icall => simp [Pt.holds] at hs
  | lock => simp [Pt.holds] at hs
  | locked =>
    simp only [step, Option.some.injEq, Prod.mk.injEq] at h
    obtain ⟨rfl, rfl⟩ := h
    exact jl_locked hJ hB op
  | tryLoad m e =>
    simp only [step, Option.some.injEq, Prod.mk.injEq] at h
    obtain ⟨rfl, rfl⟩ := h
    exact jx_decide hJ hB _ _ _ _ _ (by rintro rfl; exact hE e hL)
  | reload m e x =>
    simp only [step, Option.some.injEq, Prod.mk.injEq] at h
    obtain ⟨rfl, rfl⟩ := h
    exact jx_decide hJ hB _ _ _ _ _ (by rintro rfl; exact hE e hL)
  | call m e p =>
    simp only [step] at h
    split at h <;> simp at h
    obtain ⟨rfl, rfl⟩ := h
    exact hJ
  | cas m e p x =>
    simp only [step] at h
    split at h <;> simp at h <;> obtain ⟨rfl, rfl⟩ := h
    · exact jx_after (g := g.setP e _) hJ hB _ _ (by rintro rfl; exact hE e hL)
    · exact hJ
  | unexp e =>
    have hx : ∀ g : G K V, Q g → Jx g B (.inl (afterUnexp op e)) := by intro g hq; clear hL h; cases op <;> exact hq
    simp only [step] at h
    split at h
    · split at h
      · simp at h
      · split at h <;> simp at h <;> obtain ⟨rfl, rfl⟩ := h
        · exact hJ
        · rename_i hsd
          have := setDirty_length (g := g.setP e .nil) hw hsd
          refine hx _ ?_
          exact Q.grow (g := g.setP e .nil) hJ this.2.1 this.2.2 this.1
    · simp at h; obtain ⟨rfl, rfl⟩ := h; exact hx _ hJ
  | storeLocked e =>
    simp only [step] at h
    split at h <;> simp at h
    obtain ⟨rfl, rfl⟩ := h
    exact hJ
  | miss k =>
    simp only [step, Option.some.injEq, Prod.mk.injEq] at h
    obtain ⟨rfl, rfl⟩ := h
    obtain ⟨h1, h2⟩ := hJ
    split
    · refine ⟨fun h3 => ?_, fun _ => ?_⟩
      · simp only [h2, Bool.true_eq_false] at h3
      · show g.misses + 1 < max 1 (g.dirty.getD []).length
        omega
    · refine ⟨?_, h2, ?_⟩ <;> show _ ≤ _ <;> simp only <;> omega
  | promote k =>
    simp only [step, Option.some.injEq, Prod.mk.injEq] at h
    obtain ⟨rfl, rfl⟩ := h
    exact ⟨fun _ => rfl, fun h => by simp [G.promoted] at h⟩
  | rpromote =>
    simp only [step, Option.some.injEq, Prod.mk.injEq] at h
    obtain ⟨rfl, rfl⟩ := h
    exact ⟨fun _ => rfl, fun h => by simp [G.promoted] at h⟩
  | build0 rm =>
    have h0 := hb0 rm rfl
    simp only [step] at h
    split at h <;> simp at h <;> obtain ⟨rfl, rfl⟩ := h
    · exact hJ
    · exact ⟨fun _ => hJ.1 h0, fun h => by simp [h0] at h⟩
  | build rm todo =>
    simp only [step] at h
    split at h
    · simp at h; obtain ⟨rfl, rfl⟩ := h; exact hJ
    · split at h <;> simp at h
      obtain ⟨rfl, rfl⟩ := h
      exact hJ
  | buildE rm rest k e =>
    simp only [step] at h
    split at h
    · simp at h; obtain ⟨rfl, rfl⟩ := h; exact hJ
    · simp at h; obtain ⟨rfl, rfl⟩ := h; exact hJ
    · split at h <;> simp at h <;> obtain ⟨rfl, rfl⟩ := h
      · exact hJ
      · rename_i hsd
        have := setDirty_length hw hsd
        exact Q.grow hJ this.2.1 this.2.2 this.1
  | buildC rm rest k e =>
    simp only [step] at h
    split at h <;> simp at h <;> obtain ⟨rfl, rfl⟩ := h <;> exact hJ
  | amend rm =>
    have h0 := hJ.1 (ham rm rfl)
    have hx : ∀ s', afterAmend op = some s' → ∀ g : G K V, Q g → Jl g B s' := by cases op <;> simp [afterAmend, Jl]
    simp only [step] at h
    split at h <;> simp at h
    obtain ⟨rfl, rfl⟩ := h
    refine hx _ (by assumption) _ ⟨fun h => by simp at h, fun _ => ?_⟩
    show g.misses < _
    rw [h0]; simp; omega
  | addCall =>
    simp only [step] at h
    split at h <;> simp at h
    obtain ⟨rfl, rfl⟩ := h
    exact hJ
  | add v =>
    simp only [step] at h
    split at h
    · simp at h
    · split at h <;> simp at h <;> obtain ⟨rfl, rfl⟩ := h
      · exact hJ
      · rename_i hsd
        have := setDirty_length hw hsd
        exact Q.grow hJ this.2.1 this.2.2 this.1
  | unlock k =>
    simp only [step, Option.some.injEq, Prod.mk.injEq] at h
    obtain ⟨rfl, rfl⟩ := h
    cases k <;> exact hJ

end Verif.XSync.MapConc

import Mathlib.Data.List.Nodup
import Mathlib.Data.List.Perm.Basic
import Mathlib.Tactic.Common
/-!
# Go maps

A Go map is an association list with pairwise different keys. The order of the list has no meaning: loops over maps take
the iteration order as a separate choice.
-/
namespace Verif.Go

variable {K A B : Type} [DecidableEq K]

/-- Go's maps (no code of /repo), as association lists in the order of insertion. -/
abbrev GMap (K A : Type) := List (K × A)

namespace GMap

/-- `v, ok := m[k]` -/
def get (m : GMap K A) (k : K) : Option A :=
  match m with
  | [] => none
  | (k', a) :: m => if k' = k then some a else get m k

/-- `delete(m, k)` -/
def del (m : GMap K A) (k : K) : GMap K A := m.filter fun x => decide (x.1 ≠ k)

/-- `m[k] = a` -/
def set (m : GMap K A) (k : K) (a : A) : GMap K A := (k, a) :: del m k

/-- The keys are pairwise different. -/
def WF (m : GMap K A) : Prop := (m.map (·.1)).Nodup

@[simp] theorem get_nil (k : K) : get ([] : GMap K A) k = none := rfl

theorem get_del (m : GMap K A) (k k' : K) : get (del m k) k' = if k' = k then none else get m k' := by
  induction m with
  | nil => simp [del]
  | cons x m ih =>
    obtain ⟨a, r⟩ := x
    simp only [del] at ih
    by_cases ha : a = k
    · simp only [del, List.filter_cons, ha, ne_eq, not_true_eq_false, decide_false, Bool.false_eq_true, if_false, ih, get]
      by_cases hk : k' = k
      · simp [hk]
      · simp [hk, Ne.symm hk]
    · simp only [del, List.filter_cons, ne_eq, ha, not_false_eq_true, decide_true, if_true, get, ih]
      by_cases hk : k' = k
      · subst hk; simp [ha]
      · simp [hk]

theorem get_set (m : GMap K A) (k k' : K) (a : A) : get (set m k a) k' = if k' = k then some a else get m k' := by
  simp only [set, get, get_del]
  by_cases hk : k' = k
  · simp [hk]
  · simp [hk, Ne.symm hk]

theorem mem_of_get {m : GMap K A} {k : K} {a : A} (h : get m k = some a) : (k, a) ∈ m := by
  induction m with
  | nil => simp at h
  | cons x m ih =>
    obtain ⟨k', b⟩ := x
    simp only [get] at h
    by_cases hk : k' = k
    · simp only [hk, if_true, Option.some.injEq] at h; subst h hk; simp
    · simp only [hk, if_false] at h; exact List.mem_cons_of_mem _ (ih h)

theorem get_of_mem {m : GMap K A} (hn : WF m) {k : K} {a : A} (h : (k, a) ∈ m) : get m k = some a := by
  induction m with
  | nil => simp at h
  | cons x m ih =>
    obtain ⟨k', b⟩ := x
    simp only [WF, List.map_cons, List.nodup_cons] at hn
    simp only [List.mem_cons, Prod.mk.injEq] at h
    rcases h with ⟨rfl, rfl⟩ | h
    · simp [get]
    · have : k' ≠ k := fun e => hn.1 (by subst e; exact List.mem_map.2 ⟨_, h, rfl⟩)
      simp only [get, this, if_false]
      exact ih hn.2 h

theorem mem_iff {m : GMap K A} (hn : WF m) {k : K} {a : A} : (k, a) ∈ m ↔ get m k = some a := ⟨get_of_mem hn, mem_of_get⟩

theorem wf_nil : WF ([] : GMap K A) := by simp [WF]

theorem wf_del {m : GMap K A} (hn : WF m) (k : K) : WF (del m k) := hn.sublist (List.filter_sublist.map _)

theorem wf_set {m : GMap K A} (hn : WF m) (k : K) (a : A) : WF (set m k a) := by
  simp only [set, WF, List.map_cons, List.nodup_cons]
  refine ⟨?_, wf_del hn k⟩
  intro h
  obtain ⟨x, hx, e⟩ := List.mem_map.1 h
  simp [del] at hx
  exact hx.2 e

theorem wf_perm {m m' : GMap K A} (hn : WF m) (h : m'.Perm m) : WF m' := (h.map _).nodup_iff.2 hn

theorem get_perm {m m' : GMap K A} (hn : WF m) (h : m'.Perm m) (k : K) : get m' k = get m k := by
  cases hg : get m k with
  | some a => exact get_of_mem (wf_perm hn h) (h.mem_iff.2 (mem_of_get hg))
  | none =>
    cases hg' : get m' k with
    | none => rfl
    | some a => rw [get_of_mem hn (h.mem_iff.1 (mem_of_get hg'))] at hg; simp at hg

end GMap
end Verif.Go

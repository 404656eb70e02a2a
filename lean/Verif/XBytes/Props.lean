import Verif.XBytes.Model
import Mathlib.Tactic.Common
/-! # Property theorems for xbytes (C33, C34) -/
namespace Verif.XBytes
open Verif.Go

/-! ## C33: length and capacity, for arbitrary histories -/

/-- Anything a program can do with the package; `free` takes an arbitrary slice (a foreign one, one already freed, …). -/
inductive Action where
  | malloc (choice : Option Nat) (size capacity : Int)
  | free (s : Slice)
  | evict (c : Int) (i : Nat)

/-- One action of the program (pool.go:32-43 `Malloc`, 65-70 `Free`, or the garbage collector). -/
def act (h : Heap) : Action → Heap
  | .malloc ch s c => (malloc h ch s c).2
  | .free s => free h s
  | .evict c i => evict h c i

/-- Every pooled window has the capacity of its pool's key. -/
def KeyInv (h : Heap) : Prop := ∀ c r, r ∈ h.pools c → (r.cap : Int) = c

theorem keyInv_setPool {h : Heap} (hi : KeyInv h) (c : Int) (l : List Region) (hl : ∀ r ∈ l, (r.cap : Int) = c) :
    KeyInv (h.setPool c l) := by
  intro c' r hr
  simp only [Heap.setPool] at hr
  split at hr
  · rename_i he; rw [he]; exact hl r hr
  · exact hi c' r hr

theorem keyInv_poolGet {h : Heap} (hi : KeyInv h) (c : Int) (ch : Option Nat) :
    KeyInv (poolGet h c ch).2 ∧ (∀ r, (poolGet h c ch).1 = some r → (r.cap : Int) = c) ∧
    (0 ≤ c → (poolGet h c ch).1 ≠ none) := by
  have hmk : KeyInv (make h c).2 ∧ (∀ r, (make h c).1 = some r → (r.cap : Int) = c) ∧
      (0 ≤ c → (make h c).1 ≠ none) := by
    unfold make
    split
    · exact ⟨hi, by simp, by omega⟩
    · refine ⟨hi, ?_, by simp⟩
      intro r hr
      simp only [Option.some.injEq] at hr
      subst hr
      simp; omega
  unfold poolGet
  cases ch with
  | none => exact hmk
  | some i =>
    simp only
    cases hg : (h.pools c)[i]? with
    | none => exact hmk
    | some r =>
      refine ⟨keyInv_setPool hi _ _ (fun x hx => hi c x (List.mem_of_mem_eraseIdx hx)), ?_, by simp⟩
      intro r' hr'
      simp only [Option.some.injEq] at hr'
      subst hr'
      exact hi c r (List.mem_of_getElem? hg)

theorem keyInv_act {h : Heap} (hi : KeyInv h) (a : Action) : KeyInv (act h a) := by
  cases a with
  | malloc ch s c =>
    simp only [act, malloc]
    have := keyInv_poolGet hi (if c > s then c else s) ch
    generalize poolGet h (if c > s then c else s) ch = q at this
    obtain ⟨_ | r, h'⟩ := q
    · exact this.1
    · simp only; split <;> exact this.1
  | free s =>
    refine keyInv_setPool hi _ _ (fun x hx => ?_)
    rcases List.mem_append.mp hx with h1 | h1
    · exact hi _ _ h1
    · simp at h1; rw [h1]
  | evict c i => exact keyInv_setPool hi _ _ (fun x hx => hi c x (List.mem_of_mem_eraseIdx hx))

theorem keyInv_run (as : List Action) : KeyInv (as.foldl act init) := by
  have : ∀ (as : List Action) (h : Heap), KeyInv h → KeyInv (as.foldl act h) := by
    intro as
    induction as with
    | nil => intro h hi; exact hi
    | cons a as ih => intro h hi; exact ih _ (keyInv_act hi a)
  exact this as init (fun c r hr => by simp [init] at hr)

/-- C33: after any history (any frees, double frees, foreign slices, evictions) and for any choice of the pool,
`Malloc(size, capacity)` returns a slice of length `size` and capacity `max(size, capacity)`; it panics iff `size < 0`. -/
theorem C33_malloc (as : List Action) (ch : Option Nat) (size capacity : Int) :
    (0 ≤ size → ∃ s h', malloc (as.foldl act init) ch size capacity = (some s, h') ∧
      (s.len : Int) = size ∧ (s.reg.cap : Int) = max size capacity) ∧
    (size < 0 → (malloc (as.foldl act init) ch size capacity).1 = none) := by
  have hk := keyInv_poolGet (keyInv_run as) (if capacity > size then capacity else size) ch
  have hm : (if capacity > size then capacity else size) = max size capacity := by split <;> omega
  unfold malloc
  rw [hm] at hk ⊢
  simp only
  generalize poolGet (as.foldl act init) (max size capacity) ch = q at hk
  obtain ⟨o, h'⟩ := q
  cases o with
  | none => exact ⟨fun h0 => absurd rfl (hk.2.2 (by omega)), fun _ => rfl⟩
  | some r =>
    have hr := hk.2.1 r rfl
    constructor
    · intro h0
      simp only
      rw [if_pos ⟨h0, by omega⟩]
      exact ⟨_, _, rfl, by simp; omega, hr⟩
    · intro h0
      simp only
      rw [if_neg (by omega)]

/-- After a foreign slice was freed, the pooled object is really reused; a negative size panics. -/
example : (malloc ([Action.free ⟨⟨7, 3, 10⟩, 2⟩].foldl act init) (some 0) 4 10).1 = some ⟨⟨7, 3, 10⟩, 4⟩ ∧
    (malloc ([Action.free ⟨⟨7, 3, 10⟩, 2⟩].foldl act init) (some 0) (-1) 10).1 = none := by decide

/-- C33 for `MallocSize`. -/
theorem C33_mallocSize (as : List Action) (ch : Option Nat) (size : Int) (h0 : 0 ≤ size) :
    ∃ s h', mallocSize (as.foldl act init) ch size = (some s, h') ∧ (s.len : Int) = size ∧ (s.reg.cap : Int) = size := by
  obtain ⟨s, h', h1, h2, h3⟩ := (C33_malloc as ch size size).1 h0
  exact ⟨s, h', h1, h2, by rw [h3]; omega⟩

/-- Non-vacuous: a history with a foreign slice, after which the pooled object is really reused. -/
example : (malloc ([Action.free ⟨⟨7, 3, 10⟩, 2⟩].foldl act init) (some 0) 4 10).1 = some ⟨⟨7, 3, 10⟩, 4⟩ := by decide

/-! ## C34: live buffers never overlap -/

/-- Two windows share no byte. -/
def Disjoint (a b : Region) : Prop := ∀ i : Nat, ¬ (a.arr = b.arr ∧ a.off ≤ i ∧ i < a.off + a.cap ∧ b.off ≤ i ∧ i < b.off + b.cap)

/-- `b` is a part of `a`. -/
def Within (b a : Region) : Prop := b.arr = a.arr ∧ a.off ≤ b.off ∧ b.off + b.cap ≤ a.off + a.cap

/-- A program in which each buffer has one owner: `live` are the buffers currently owned by someone. -/
structure World where
  heap : Heap
  live : List Region

/-- The disciplined steps: `Malloc` (any size, any pool choice), `make` by the program itself, giving up a part of a
buffer by reslicing or splitting it into disjoint parts, `Free` of an owned buffer (which ends the ownership), dropping
a buffer, and evictions. -/
inductive Step : World → World → Prop where
  | malloc (w : World) (ch : Option Nat) (size capacity : Int) (s : Slice) (h' : Heap)
      (hm : malloc w.heap ch size capacity = (some s, h')) : Step w ⟨h', s.reg :: w.live⟩
  | mallocPanic (w : World) (ch : Option Nat) (size capacity : Int) (h' : Heap)
      (hm : malloc w.heap ch size capacity = (none, h')) : Step w ⟨h', w.live⟩
  | alloc (w : World) (c : Int) (r : Region) (h' : Heap) (hm : make w.heap c = (some r, h')) : Step w ⟨h', r :: w.live⟩
  | split (w : World) (i : Nat) (hi : i < w.live.length) (parts : List Region) (hp : ∀ p ∈ parts, Within p w.live[i])
      (hd : parts.Pairwise Disjoint) : Step w ⟨w.heap, parts ++ w.live.eraseIdx i⟩
  | free (w : World) (i : Nat) (hi : i < w.live.length) (len : Nat) :
      Step w ⟨free w.heap ⟨w.live[i], len⟩, w.live.eraseIdx i⟩
  | drop (w : World) (i : Nat) : Step w ⟨w.heap, w.live.eraseIdx i⟩
  | evict (w : World) (c : Int) (i : Nat) : Step w ⟨evict w.heap c i, w.live⟩

/-- The states that programs can reach by calls of `Malloc` and `Free` (pool.go:32-70). -/
inductive Reach : World → Prop where
  | init : Reach ⟨init, []⟩
  | step {w w' : World} : Reach w → Step w w' → Reach w'

theorem Disjoint.symm {a b : Region} (h : Disjoint a b) : Disjoint b a := by
  intro i hi; exact h i ⟨hi.1.symm, hi.2.2.2.1, hi.2.2.2.2, hi.2.1, hi.2.2.1⟩

theorem Disjoint.within {a b p : Region} (h : Disjoint a b) (hp : Within p a) : Disjoint p b := by
  intro i hi
  obtain ⟨h1, h2, h3⟩ := hp
  exact h i ⟨h1 ▸ hi.1, by omega, by omega, hi.2.2.2.1, hi.2.2.2.2⟩

/-- Proof only: part of an invariant or simulation; models no code. -/
structure Inv (w : World) : Prop where
  live : w.live.Pairwise Disjoint
  pool : ∀ c, (w.heap.pools c).Pairwise Disjoint
  cross : ∀ c c', c ≠ c' → ∀ r ∈ w.heap.pools c, ∀ r' ∈ w.heap.pools c', Disjoint r r'
  lp : ∀ r ∈ w.live, ∀ c, ∀ r' ∈ w.heap.pools c, Disjoint r r'
  freshL : ∀ r ∈ w.live, r.arr < w.heap.next
  freshP : ∀ c, ∀ r ∈ w.heap.pools c, r.arr < w.heap.next

theorem pairwise_get_erase {l : List Region} (h : l.Pairwise Disjoint) (i : Nat) (hi : i < l.length) :
    ∀ r ∈ l.eraseIdx i, Disjoint l[i] r := by
  have key : ∀ (l : List Region), l.Pairwise Disjoint → ∀ (i : Nat) (hi : i < l.length), ∀ r ∈ l.eraseIdx i, Disjoint l[i] r := by
    intro l
    induction l with
    | nil => intro _ i hi; simp at hi
    | cons a l ih =>
      intro h i hi r hr
      rw [List.pairwise_cons] at h
      cases i with
      | zero => exact h.1 r (by simpa using hr)
      | succ i =>
        simp only [List.eraseIdx_cons_succ, List.mem_cons] at hr
        rcases hr with rfl | hr
        · exact (h.1 _ (List.getElem_mem _)).symm
        · exact ih h.2 i (by simpa using hi) r hr
  exact key l h i hi

/-- Removing one pooled object gives a smaller heap. -/
theorem inv_evict {w : World} (hi : Inv w) (c : Int) (i : Nat) : Inv ⟨evict w.heap c i, w.live⟩ := by
  have hsub : ∀ c' r, r ∈ (evict w.heap c i).pools c' → r ∈ w.heap.pools c' := by
    intro c' r hr
    simp only [evict, Heap.setPool] at hr
    split at hr
    · rename_i he; rw [he]; exact List.mem_of_mem_eraseIdx hr
    · exact hr
  refine ⟨hi.live, ?_, ?_, ?_, hi.freshL, ?_⟩
  · intro c'
    simp only [evict, Heap.setPool]
    split
    · exact (hi.pool c).sublist (List.eraseIdx_sublist _ _)
    · exact hi.pool c'
  · intro c1 c2 hne r hr r' hr'
    exact hi.cross c1 c2 hne r (hsub _ _ hr) r' (hsub _ _ hr')
  · intro r hr c' r' hr'; exact hi.lp r hr c' r' (hsub _ _ hr')
  · intro c' r hr; exact hi.freshP c' r (hsub _ _ hr)

theorem inv_poolGet {w : World} (hi : Inv w) (c : Int) (ch : Option Nat) :
    (∀ r h', poolGet w.heap c ch = (some r, h') → Inv ⟨h', r :: w.live⟩) ∧
    (∀ h', poolGet w.heap c ch = (none, h') → Inv ⟨h', w.live⟩) := by
  have hmk : (∀ r h', make w.heap c = (some r, h') → Inv ⟨h', r :: w.live⟩) ∧
      (∀ h', make w.heap c = (none, h') → Inv ⟨h', w.live⟩) := by
    unfold make
    split
    · constructor
      · intro r h' h; simp at h
      · intro h' h; simp at h; subst h; exact hi
    · constructor
      · intro r h' h
        simp only [Prod.mk.injEq, Option.some.injEq] at h
        obtain ⟨rfl, rfl⟩ := h
        refine ⟨List.pairwise_cons.mpr ⟨?_, hi.live⟩, hi.pool, hi.cross, ?_, ?_, ?_⟩
        · intro r' hr' i hc; have := hi.freshL r' hr'; simp at hc; omega
        · intro r hr c' r' hr'
          rcases List.mem_cons.mp hr with rfl | hr
          · intro i hc; have := hi.freshP c' r' hr'; simp at hc; omega
          · exact hi.lp r hr c' r' hr'
        · intro r hr
          rcases List.mem_cons.mp hr with rfl | hr
          · simp
          · have := hi.freshL r hr; simp; omega
        · intro c' r hr; have := hi.freshP c' r hr; simp; omega
      · intro h' h; simp at h
  unfold poolGet
  cases ch with
  | none => exact hmk
  | some i =>
    simp only
    cases hg : (w.heap.pools c)[i]? with
    | none => exact hmk
    | some r =>
      constructor
      · intro r' h' h
        simp only [Prod.mk.injEq, Option.some.injEq] at h
        obtain ⟨rfl, rfl⟩ := h
        have he := inv_evict hi c i
        obtain ⟨hlt, hget⟩ := List.getElem?_eq_some_iff.mp hg
        have hmem : r ∈ w.heap.pools c := List.mem_of_getElem? hg
        refine ⟨List.pairwise_cons.mpr ⟨?_, hi.live⟩, he.pool, he.cross, ?_, ?_, he.freshP⟩
        · intro r' hr'; exact (hi.lp r' hr' c r hmem).symm
        · intro x hx c' r' hr'
          rcases List.mem_cons.mp hx with rfl | hx
          · simp only [Heap.setPool] at hr'
            split at hr'
            · have := pairwise_get_erase (hi.pool c) i hlt r' hr'
              rw [hget] at this; exact this
            · rename_i hne
              exact hi.cross c c' (fun h => hne h.symm) _ hmem r' hr'
          · exact he.lp x hx c' r' hr'
        · intro x hx
          rcases List.mem_cons.mp hx with rfl | hx
          · exact hi.freshP c _ hmem
          · exact hi.freshL x hx
      · intro h' h; simp at h

theorem inv_drop {w : World} (hi : Inv w) (i : Nat) : Inv ⟨w.heap, w.live.eraseIdx i⟩ :=
  ⟨hi.live.sublist (List.eraseIdx_sublist _ _), hi.pool, hi.cross,
    fun r hr => hi.lp r (List.mem_of_mem_eraseIdx hr), fun r hr => hi.freshL r (List.mem_of_mem_eraseIdx hr), hi.freshP⟩

theorem inv_step {w w' : World} (hi : Inv w) (hs : Step w w') : Inv w' := by
  cases hs with
  | malloc ch size capacity s h' hm =>
    have hk := inv_poolGet hi (if capacity > size then capacity else size) ch
    unfold malloc at hm
    simp only at hm
    generalize poolGet w.heap (if capacity > size then capacity else size) ch = q at hk hm
    obtain ⟨_ | r, h1⟩ := q
    · simp at hm
    · simp only at hm
      split at hm
      · simp only [Prod.mk.injEq, Option.some.injEq] at hm
        obtain ⟨rfl, rfl⟩ := hm
        exact hk.1 r _ rfl
      · simp at hm
  | mallocPanic ch size capacity h' hm =>
    have hk := inv_poolGet hi (if capacity > size then capacity else size) ch
    unfold malloc at hm
    simp only at hm
    generalize poolGet w.heap (if capacity > size then capacity else size) ch = q at hk hm
    obtain ⟨_ | r, h1⟩ := q
    · simp at hm; subst hm; exact hk.2 _ rfl
    · simp only at hm
      split at hm
      · simp at hm
      · simp at hm; subst hm
        exact inv_drop (hk.1 r _ rfl) 0
  | alloc c r h' hm => exact (inv_poolGet hi c none).1 r h' hm
  | split i hlt parts hp hd =>
    have hmem : w.live[i] ∈ w.live := List.getElem_mem _
    have hdp := inv_drop hi i
    refine ⟨List.pairwise_append.mpr ⟨hd, hdp.live, ?_⟩, hi.pool, hi.cross, ?_, ?_, hi.freshP⟩
    · intro p hpm r hr
      exact (pairwise_get_erase hi.live i hlt r hr).within (hp p hpm)
    · intro r hr c r' hr'
      rcases List.mem_append.mp hr with hr | hr
      · exact (hi.lp _ hmem c r' hr').within (hp r hr)
      · exact hdp.lp r hr c r' hr'
    · intro r hr
      rcases List.mem_append.mp hr with hr | hr
      · have h1 := (hp r hr).1; have := hi.freshL _ hmem; simp only; omega
      · exact hdp.freshL r hr
  | free i hlt len =>
    have hmem : w.live[i] ∈ w.live := List.getElem_mem _
    have hdp := inv_drop hi i
    have hsub : ∀ c' r, r ∈ (free w.heap ⟨w.live[i], len⟩).pools c' → r ∈ w.heap.pools c' ∨ (r = w.live[i] ∧ c' = (w.live[i].cap : Int)) := by
      intro c' r hr
      simp only [free, Heap.setPool] at hr
      split at hr
      · rename_i he
        rcases List.mem_append.mp hr with h | h
        · left; rw [he]; exact h
        · right; exact ⟨by simpa using h, he⟩
      · left; exact hr
    refine ⟨hdp.live, ?_, ?_, ?_, hdp.freshL, ?_⟩
    · intro c'
      simp only [free, Heap.setPool]
      split
      · refine List.pairwise_append.mpr ⟨hi.pool _, by simp, ?_⟩
        intro r hr r' hr'
        simp only [List.mem_singleton] at hr'
        subst hr'
        exact (hi.lp _ hmem _ r hr).symm
      · exact hi.pool c'
    · intro c1 c2 hne r hr r' hr'
      rcases hsub _ _ hr with h1 | ⟨rfl, h1⟩ <;> rcases hsub _ _ hr' with h2 | ⟨rfl, h2⟩
      · exact hi.cross c1 c2 hne r h1 r' h2
      · exact (hi.lp _ hmem _ r h1).symm
      · exact hi.lp _ hmem _ r' h2
      · exact absurd (h1.trans h2.symm) hne
    · intro r hr c r' hr'
      rcases hsub _ _ hr' with h2 | ⟨rfl, h2⟩
      · exact hdp.lp r hr c r' h2
      · exact (pairwise_get_erase hi.live i hlt r hr).symm
    · intro c r hr
      rcases hsub _ _ hr with h2 | ⟨rfl, h2⟩
      · exact hi.freshP c r h2
      · exact hi.freshL _ hmem
  | drop i => exact inv_drop hi i
  | evict c i => exact inv_evict hi c i

/-- C34: in every state of every disciplined program, for every choice of the pool and every eviction, two different
live buffers have no byte in common. -/
theorem C34_live_disjoint (w : World) (hw : Reach w) (i j : Nat) (hi : i < w.live.length) (hj : j < w.live.length)
    (hne : i ≠ j) : Disjoint w.live[i] w.live[j] := by
  have hinv : Inv w := by
    clear hi hj
    induction hw with
    | init => constructor <;> simp [init]
    | step _ hs ih => exact inv_step ih hs
  rcases Nat.lt_or_gt_of_ne hne with h | h
  · exact List.pairwise_iff_getElem.mp hinv.live i j hi hj h
  · exact (List.pairwise_iff_getElem.mp hinv.live j i hj hi h).symm

/-- A program with reuse: malloc, free, malloc again (reusing the array) and a second malloc. -/
example : ∃ w, Reach w ∧ w.live = [⟨1, 0, 8⟩, ⟨0, 0, 8⟩] := by
  have h1 := Reach.step .init (Step.malloc ⟨init, []⟩ none 4 8 ⟨⟨0, 0, 8⟩, 4⟩ _ rfl)
  have h2 := Reach.step h1 (Step.free _ 0 (by simp) 4)
  have h3 := Reach.step h2 (Step.malloc _ (some 0) 8 8 ⟨⟨0, 0, 8⟩, 8⟩ _ rfl)
  have h4 := Reach.step h3 (Step.malloc _ none 8 8 ⟨⟨1, 0, 8⟩, 8⟩ _ rfl)
  exact ⟨_, h4, rfl⟩

/-- The discipline is needed: after a double free two mallocs return the same memory. -/
theorem C34_double_free_aliases :
    ∃ as : List Action, ∃ s h', malloc (as.foldl act init) (some 0) 8 8 = (some s, h') ∧
      (malloc h' (some 0) 8 8).1 = some s ∧ ¬ Disjoint s.reg s.reg := by
  refine ⟨[.malloc none 8 8, .free ⟨⟨0, 0, 8⟩, 8⟩, .free ⟨⟨0, 0, 8⟩, 8⟩], ⟨⟨0, 0, 8⟩, 8⟩, _, rfl, rfl, ?_⟩
  intro h
  exact h 0 (by decide)

end Verif.XBytes

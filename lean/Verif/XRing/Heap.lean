import Verif.XRing.Lemmas
/-!
# Rings with the arrays behind their slices (C130)

`Model.lean` takes the slots of a ring and the result of `Take` to be lists. Here both are slices, that is references to arrays of one memory, so
that it is visible who can change what. The program makes any number of rings, adds to them, takes from them, and changes elements of the slices
that it got. Simplification: one goroutine (the lock: C02).
-/
namespace Verif.XRing.Heap
open Verif.Go

variable {α : Type}

/-! ## Model -/

/-- xring.go:22-26: the number of the array of `elements` and the counter. -/
structure RingH where
  arr : Nat
  index : Int
  deriving DecidableEq, Repr

/-- The arrays that were allocated so far, the rings of the program, and the arrays of the slices that the calls of `Take` returned, the first one
first. All slices cover their whole array. -/
structure Mem (α : Type) where
  mem : List (List α)
  rings : List RingH
  outs : List Nat
  deriving DecidableEq, Repr

/-- What a program does: xring.go:29 `NewRing`, 40 `Add`, 49 `Take`, and changes of the slices it got. -/
inductive Op (α : Type) where
  /-- `NewRing(n)`; rings are numbered in the order in which they are made -/
  | new (n : Int)
  /-- `Add(v)` on ring `k` -/
  | add (k : Nat) (v : α)
  /-- `Take()` on ring `k` -/
  | take (k : Nat)
  /-- `s[i] = v`, where `s` is the slice returned by the `j`-th `Take` -/
  | change (j i : Nat) (v : α)

/-- `x[i]` -/
def load (m : List (List α)) (a i : Nat) : Option α := do
  let es ← m[a]?
  es[i]?

/-- `x[i] = v`; panics if `i` is out of range. -/
def store (m : List (List α)) (a i : Nat) (v : α) : Option (List (List α)) := do
  let es ← m[a]?
  if i < es.length then some (m.set a (es.set i v)) else none

/-- xring.go:62-65: `elements[i] = r.elements[(start+i)%len(r.elements)]`; `dst` is the array of `elements`, `src` the one of the ring with `n`
slots. -/
def copyInto (src n dst start : Nat) : (i cnt : Nat) → List (List α) → Option (List (List α))
  | _, 0, m => some m
  | i, cnt + 1, m => do
    let x ← load m src ((start + i) % n)
    let m' ← store m dst i x
    copyInto src n dst start (i + 1) cnt m'

/-- One statement of the program; `none` is a panic (or a ring or slice that does not exist). -/
def step (nil : α) (s : Mem α) : Op α → Option (Mem α)
  -- xring.go:29-37
  | .new n => if n < 1 then none else
      some { s with mem := s.mem ++ [List.replicate n.toNat nil], rings := s.rings ++ [⟨s.mem.length, 0⟩] }
  -- xring.go:40-46
  | .add k v => do
    let r ← s.rings[k]?
    let es ← s.mem[r.arr]?
    if es.length = 0 then none
    else
      let i := r.index.tmod es.length
      if i < 0 then none
      else
        let m ← store s.mem r.arr i.toNat v
        some { s with mem := m, rings := s.rings.set k ⟨r.arr, wrap64 (r.index + 1)⟩ }
  -- xring.go:49-68
  | .take k => do
    let r ← s.rings[k]?
    let es ← s.mem[r.arr]?
    let n : Int := es.length
    let size : Int := if r.index > n then n else r.index
    let start : Int := if r.index > n then r.index.tmod n else 0
    if size < 0 then none
    else
      let dst := s.mem.length
      let m ← copyInto r.arr es.length dst start.toNat 0 size.toNat (s.mem ++ [List.replicate size.toNat nil])
      some { s with mem := m, outs := s.outs ++ [dst] }
  | .change j i v => do
    let a ← s.outs[j]?
    let m ← store s.mem a i v
    some { s with mem := m }

/-- Several operations; `none`: a panic. -/
def run (nil : α) (s : Mem α) : List (Op α) → Option (Mem α)
  | [] => some s
  | op :: ops => do
    let s' ← step nil s op
    run nil s' ops

/-- At the beginning there may be other arrays. -/
def init (m : List (List α)) : Mem α := ⟨m, [], []⟩

/-- What the program reads in the slices that it got. -/
def Mem.read (s : Mem α) : List (Option (List α)) := s.outs.map fun a => s.mem[a]?

/-! ## Specification: values instead of arrays -/

/-- For every ring its capacity and the values added to it, and the slices of the program, each one a list of its own. -/
structure Abs (α : Type) where
  rings : List (Nat × List α)
  outs : List (List α)

/-- A `Take` gives a new list; a change of a slice changes this slice only. -/
def absStep (s : Abs α) : Op α → Option (Abs α)
  | .new n => if n < 1 then none else some { s with rings := s.rings ++ [(n.toNat, [])] }
  | .add k v => do
    let (n, log) ← s.rings[k]?
    some { s with rings := s.rings.set k (n, log ++ [v]) }
  | .take k => do
    let (n, log) ← s.rings[k]?
    some { s with outs := s.outs ++ [lastN n log] }
  | .change j i v => do
    let l ← s.outs[j]?
    if i < l.length then some { s with outs := s.outs.set j (l.set i v) } else none

/-- Specification: several operations on values. -/
def absRun (s : Abs α) : List (Op α) → Option (Abs α)
  | [] => some s
  | op :: ops => do
    let s' ← absStep s op
    absRun s' ops

/-! ## Proof -/

/-- Proof only: part of an invariant or simulation; models no code. -/
structure Rel (m0 : List (List α)) (h : Mem α) (s : Abs α) : Prop where
  lenR : h.rings.length = s.rings.length
  lenO : h.outs.length = s.outs.length
  old : m0.length ≤ h.mem.length ∧ h.mem.take m0.length = m0
  ring : ∀ (k : Nat) (r : RingH) (p : Nat × List α), h.rings[k]? = some r → s.rings[k]? = some p →
    m0.length ≤ r.arr ∧ ∃ es, h.mem[r.arr]? = some es ∧ Rep p.1 p.2 ⟨es, r.index⟩
  out : ∀ (j a : Nat) (l : List α), h.outs[j]? = some a → s.outs[j]? = some l → m0.length ≤ a ∧ h.mem[a]? = some l
  ringInj : ∀ (k k' : Nat) (r r' : RingH), h.rings[k]? = some r → h.rings[k']? = some r' → r.arr = r'.arr → k = k'
  outInj : ∀ (j j' a : Nat), h.outs[j]? = some a → h.outs[j']? = some a → j = j'
  apart : ∀ (k j : Nat) (r : RingH), h.rings[k]? = some r → h.outs[j]? = some r.arr → False

theorem get_lt {β : Type} {l : List β} {i : Nat} {x : β} (h : l[i]? = some x) : i < l.length := by
  rcases Nat.lt_or_ge i l.length with g | g
  · exact g
  · rw [List.getElem?_eq_none g] at h; cases h

theorem get_same {β γ : Type} {l : List β} {l' : List γ} (e : l.length = l'.length) {i : Nat} {x : β} (h : l[i]? = some x) :
    ∃ y, l'[i]? = some y := by
  have := get_lt h
  exact ⟨l'[i]'(by omega), List.getElem?_eq_getElem _⟩

theorem get_append_single {β : Type} {l : List β} {i : Nat} {x y : β} (h : (l ++ [y])[i]? = some x) :
    l[i]? = some x ∨ (i = l.length ∧ x = y) := by
  have hl := get_lt h
  rcases Nat.lt_or_ge i l.length with g | g
  · left; rwa [List.getElem?_append_left g] at h
  · right
    simp at hl
    have : i = l.length := by omega
    subst this
    simp at h
    exact ⟨rfl, h.symm⟩

theorem get_append_old {β : Type} {l : List β} {i : Nat} {x : β} (l' : List β) (h : l[i]? = some x) : (l ++ l')[i]? = some x := by
  rw [List.getElem?_append_left (get_lt h)]; exact h

theorem take_set_ge {β : Type} (l : List β) (n a : Nat) (x : β) (h : n ≤ a) : (l.set a x).take n = l.take n := by
  rw [List.take_set, List.set_eq_of_length_le]
  simp; omega

/-- The copying loop fills the new array and changes nothing else. -/
theorem copyInto_eq (src dst start : Nat) (es : List α) (hne : src ≠ dst) :
    ∀ (cnt i : Nat) (m : List (List α)) (pre rest out : List α), m[src]? = some es → m[dst]? = some (pre ++ rest) → pre.length = i →
      rest.length = cnt → copyLoop es start i cnt = some out →
      copyInto src es.length dst start i cnt m = some (m.set dst (pre ++ out)) := by
  intro cnt
  induction cnt with
  | zero =>
    intro i m pre rest out h1 h2 h3 h4 h5
    simp only [copyLoop, Option.some.injEq] at h5
    subst h5
    have : rest = [] := List.eq_nil_of_length_eq_zero h4
    subst this
    simp only [copyInto, Option.some.injEq, List.append_nil] at h2 ⊢
    have hl := get_lt h2
    apply List.ext_getElem?
    intro q
    by_cases e : dst = q
    · subst e; rw [List.getElem?_set_self hl]; exact h2
    · rw [List.getElem?_set_ne e]
  | succ c ih =>
    intro i m pre rest out h1 h2 h3 h4 h5
    rw [copyLoop] at h5
    cases hx : es[(start + i) % es.length]? with
    | none => simp [hx] at h5
    | some x =>
      cases hr : copyLoop es start (i + 1) c with
      | none => simp [hx, hr] at h5
      | some out' =>
        simp [hx, hr] at h5
        subst h5
        match rest, h4 with
        | y :: ys, h4 =>
          have hl := get_lt h2
          have hlen : i < (pre ++ y :: ys).length := by simp; omega
          have hset : (pre ++ y :: ys).set i x = (pre ++ [x]) ++ ys := by
            subst h3; simp
          have hst : store m dst i x = some (m.set dst ((pre ++ [x]) ++ ys)) := by
            simp only [store, h2, Option.bind_eq_bind, Option.bind_some]
            rw [if_pos hlen, hset]
          rw [copyInto]
          simp only [load, h1, hx, hst, Option.bind_eq_bind, Option.bind_some]
          rw [ih (i + 1) (m.set dst ((pre ++ [x]) ++ ys)) (pre ++ [x]) ys out'
            (by rw [List.getElem?_set_ne (Ne.symm hne)]; exact h1) (List.getElem?_set_self hl) (by simp; omega) (by simp at h4; exact h4) hr]
          simp [List.set_set]

/-- The number of `Add`s. -/
def adds : List (Op α) → Nat
  | [] => 0
  | .add _ _ :: ops => adds ops + 1
  | _ :: ops => adds ops

theorem rel_new (nil : α) {m0 : List (List α)} {h : Mem α} {s : Abs α} (R : Rel m0 h s) (n : Int) :
    (step nil h (.new n) = none ∧ absStep s (.new n) = none) ∨
      ∃ h' s', step nil h (.new n) = some h' ∧ absStep s (.new n) = some s' ∧ Rel m0 h' s' := by
  by_cases hn : n < 1
  · left; simp [step, absStep, hn]
  · right
    refine ⟨_, _, by simp [step, hn]; rfl, by simp [absStep, hn]; rfl, ?_⟩
    refine ⟨by simp [R.lenR], R.lenO, ⟨by simp; have := R.old.1; omega, ?_⟩, ?_, ?_, ?_, R.outInj, ?_⟩
    · rw [List.take_append_of_le_length R.old.1]; exact R.old.2
    · intro k r p hr hp
      rcases get_append_single hr with hr | ⟨ek, er⟩
      · have hk := get_lt hr
        rw [List.getElem?_append_left (by rw [← R.lenR]; exact hk)] at hp
        obtain ⟨h1, es, h2, h3⟩ := R.ring k r p hr hp
        exact ⟨h1, es, get_append_old _ h2, h3⟩
      · subst er
        rw [ek, R.lenR] at hp
        simp at hp
        subst hp
        exact ⟨R.old.1, List.replicate n.toNat nil, by simp, ⟨by simp; omega, by simp, by simp, by simp⟩⟩
    · intro j a l ha hl
      obtain ⟨h1, h2⟩ := R.out j a l ha hl
      exact ⟨h1, get_append_old _ h2⟩
    · intro k k' r r' hr hr' e
      rcases get_append_single hr with hr | ⟨ek, er⟩ <;> rcases get_append_single hr' with hr' | ⟨ek', er'⟩
      · exact R.ringInj k k' r r' hr hr' e
      · obtain ⟨p, hp⟩ := get_same R.lenR hr
        obtain ⟨_, es, h2, _⟩ := R.ring k r p hr hp
        have := get_lt h2
        subst er'; simp at e; omega
      · obtain ⟨p, hp⟩ := get_same R.lenR hr'
        obtain ⟨_, es, h2, _⟩ := R.ring k' r' p hr' hp
        have := get_lt h2
        subst er; simp at e; omega
      · omega
    · intro k j r hr hj
      rcases get_append_single hr with hr | ⟨ek, er⟩
      · exact R.apart k j r hr hj
      · obtain ⟨l, hl⟩ := get_same R.lenO hj
        have := get_lt (R.out j _ l hj hl).2
        subst er; simp at this

theorem rel_add (nil : α) {m0 : List (List α)} {h : Mem α} {s : Abs α} (R : Rel m0 h s) (k : Nat) (v : α)
    (hb : ∀ (k : Nat) (p : Nat × List α), s.rings[k]? = some p → (p.2.length : Int) + 1 < 2 ^ 63) :
    (step nil h (.add k v) = none ∧ absStep s (.add k v) = none) ∨
      ∃ h' s', step nil h (.add k v) = some h' ∧ absStep s (.add k v) = some s' ∧ Rel m0 h' s' := by
  cases hr : h.rings[k]? with
  | none =>
    left
    have : s.rings[k]? = none := by
      rw [List.getElem?_eq_none_iff] at hr ⊢; rw [← R.lenR]; exact hr
    simp [step, absStep, hr, this]
  | some r =>
    right
    obtain ⟨⟨n, log⟩, hp⟩ := get_same R.lenR hr
    obtain ⟨ha, es, he, hrep⟩ := R.ring k r _ hr hp
    obtain ⟨r1, e1, hrep1⟩ := rep_add hrep v (hb k _ hp)
    have hl := get_lt he
    have hk := get_lt hr
    have hk' := get_lt hp
    have key : step nil h (.add k v) = some { h with mem := h.mem.set r.arr r1.elements, rings := h.rings.set k ⟨r.arr, r1.index⟩ } := by
      simp only [Ring.add] at e1
      simp only [step, hr, he, Option.bind_eq_bind, Option.bind_some]
      split at e1
      · cases e1
      · rename_i h0
        rw [if_neg h0]
        split at e1
        · cases e1
        · rename_i h1
          rw [if_neg h1]
          injection e1 with e1
          subst e1
          have hi : (r.index.tmod (es.length : Int)).toNat < es.length := by
            have := Int.tmod_lt_of_pos r.index (b := (es.length : Int)) (by omega)
            omega
          simp only [store, he, Option.bind_eq_bind, Option.bind_some, if_pos hi]
    refine ⟨_, { s with rings := s.rings.set k (n, log ++ [v]) }, key, by simp [absStep, hp], ?_⟩
    refine ⟨by simp [R.lenR], R.lenO, ⟨by simp; exact R.old.1, ?_⟩, ?_, ?_, ?_, R.outInj, ?_⟩
    · simp only; rw [take_set_ge _ _ _ _ ha]; exact R.old.2
    · intro q r' p hr' hp'
      simp only at hr' hp'
      by_cases e : k = q
      · subst e
        rw [List.getElem?_set_self hk] at hr'
        rw [List.getElem?_set_self hk'] at hp'
        cases hr'; cases hp'
        exact ⟨ha, r1.elements, List.getElem?_set_self hl, hrep1⟩
      · rw [List.getElem?_set_ne e] at hr' hp'
        obtain ⟨h1, es', h2, h3⟩ := R.ring q r' p hr' hp'
        refine ⟨h1, es', ?_, h3⟩
        have : r.arr ≠ r'.arr := fun c => e (R.ringInj k q r r' hr hr' c)
        simp only; rw [List.getElem?_set_ne this]; exact h2
    · intro j a l hj hl'
      obtain ⟨h1, h2⟩ := R.out j a l hj hl'
      refine ⟨h1, ?_⟩
      have : r.arr ≠ a := fun c => R.apart k j r hr (by rw [c]; exact hj)
      simp only; rw [List.getElem?_set_ne this]; exact h2
    · have arr : ∀ (q : Nat) (x : RingH), (h.rings.set k ⟨r.arr, r1.index⟩)[q]? = some x → ∃ y, h.rings[q]? = some y ∧ y.arr = x.arr := by
        intro q x hx
        by_cases e : k = q
        · subst e
          rw [List.getElem?_set_self hk] at hx
          cases hx
          exact ⟨r, hr, rfl⟩
        · rw [List.getElem?_set_ne e] at hx
          exact ⟨x, hx, rfl⟩
      intro q q' x x' hx hx' e
      obtain ⟨y, hy, ey⟩ := arr q x hx
      obtain ⟨y', hy', ey'⟩ := arr q' x' hx'
      exact R.ringInj q q' y y' hy hy' (by rw [ey, ey', e])
    · intro q j x hx hj
      simp only at hx hj
      by_cases e : k = q
      · subst e
        rw [List.getElem?_set_self hk] at hx
        cases hx
        exact R.apart k j r hr hj
      · rw [List.getElem?_set_ne e] at hx
        exact R.apart q j x hx hj

theorem rel_take (nil : α) {m0 : List (List α)} {h : Mem α} {s : Abs α} (R : Rel m0 h s) (k : Nat) :
    (step nil h (.take k) = none ∧ absStep s (.take k) = none) ∨
      ∃ h' s', step nil h (.take k) = some h' ∧ absStep s (.take k) = some s' ∧ Rel m0 h' s' := by
  cases hr : h.rings[k]? with
  | none =>
    left
    have : s.rings[k]? = none := by
      rw [List.getElem?_eq_none_iff] at hr ⊢; rw [← R.lenR]; exact hr
    simp [step, absStep, hr, this]
  | some r =>
    right
    obtain ⟨⟨n, log⟩, hp⟩ := get_same R.lenR hr
    obtain ⟨ha, es, he, hrep⟩ := R.ring k r _ hr hp
    have ht := rep_take hrep
    have hl := get_lt he
    have key : step nil h (.take k) = some { h with mem := h.mem ++ [lastN n log], outs := h.outs ++ [h.mem.length] } := by
      simp only [Ring.take] at ht
      simp only [step, hr, he, Option.bind_eq_bind, Option.bind_some]
      generalize (if r.index > (es.length : Int) then (es.length : Int) else r.index) = size at ht ⊢
      generalize (if r.index > (es.length : Int) then r.index.tmod es.length else 0) = start at ht ⊢
      split at ht
      · cases ht
      · rename_i h0
        rw [if_neg h0]
        rw [copyInto_eq r.arr h.mem.length start.toNat es (by omega) size.toNat 0 (h.mem ++ [List.replicate size.toNat nil]) []
          (List.replicate size.toNat nil) (lastN n log) (get_append_old _ he) (by simp) rfl (by simp) ht]
        simp
    refine ⟨_, { s with outs := s.outs ++ [lastN n log] }, key, by simp [absStep, hp], ?_⟩
    refine ⟨R.lenR, by simp [R.lenO], ⟨by simp; have := R.old.1; omega, ?_⟩, ?_, ?_, R.ringInj, ?_, ?_⟩
    · simp only; rw [List.take_append_of_le_length R.old.1]; exact R.old.2
    · intro q r' p hr' hp'
      obtain ⟨h1, es', h2, h3⟩ := R.ring q r' p hr' hp'
      exact ⟨h1, es', get_append_old _ h2, h3⟩
    · intro j a l hj hl'
      rcases get_append_single hj with hj | ⟨ej, ea⟩
      · have := get_lt hj
        simp only at hl'
        rw [List.getElem?_append_left (by rw [← R.lenO]; exact this)] at hl'
        obtain ⟨h1, h2⟩ := R.out j a l hj hl'
        exact ⟨h1, get_append_old _ h2⟩
      · subst ea
        simp only at hl'
        rw [ej, R.lenO] at hl'
        simp at hl'
        subst hl'
        exact ⟨R.old.1, by simp⟩
    · intro j j' a hj hj'
      have fresh : ∀ (j : Nat), h.outs[j]? = some h.mem.length → False := by
        intro j hj
        obtain ⟨l, hl'⟩ := get_same R.lenO hj
        have := get_lt (R.out j _ l hj hl').2
        omega
      rcases get_append_single hj with hj | ⟨ej, ea⟩ <;> rcases get_append_single hj' with hj' | ⟨ej', ea'⟩
      · exact R.outInj j j' a hj hj'
      · subst ea'; exact (fresh _ hj).elim
      · subst ea; exact (fresh _ hj').elim
      · omega
    · intro q j x hx hj
      rcases get_append_single hj with hj | ⟨ej, ea⟩
      · exact R.apart q j x hx hj
      · obtain ⟨p, hp'⟩ := get_same R.lenR hx
        obtain ⟨_, es', h2, _⟩ := R.ring q x p hx hp'
        have := get_lt h2
        omega

theorem rel_change (nil : α) {m0 : List (List α)} {h : Mem α} {s : Abs α} (R : Rel m0 h s) (j i : Nat) (v : α) :
    (step nil h (.change j i v) = none ∧ absStep s (.change j i v) = none) ∨
      ∃ h' s', step nil h (.change j i v) = some h' ∧ absStep s (.change j i v) = some s' ∧ Rel m0 h' s' := by
  cases ha : h.outs[j]? with
  | none =>
    left
    have : s.outs[j]? = none := by
      rw [List.getElem?_eq_none_iff] at ha ⊢; rw [← R.lenO]; exact ha
    simp [step, absStep, ha, this]
  | some a =>
    obtain ⟨l, hl⟩ := get_same R.lenO ha
    obtain ⟨h0, h1⟩ := R.out j a l ha hl
    by_cases hi : i < l.length
    · right
      have hal := get_lt h1
      have hjl := get_lt hl
      refine ⟨{ h with mem := h.mem.set a (l.set i v) }, { s with outs := s.outs.set j (l.set i v) },
        by simp [step, ha, store, h1, hi], by simp [absStep, hl, hi], ?_⟩
      refine ⟨R.lenR, by simp [R.lenO], ⟨by simp; exact R.old.1, ?_⟩, ?_, ?_, R.ringInj, R.outInj, R.apart⟩
      · simp only; rw [take_set_ge _ _ _ _ h0]; exact R.old.2
      · intro q r' p hr' hp'
        obtain ⟨g1, es', g2, g3⟩ := R.ring q r' p hr' hp'
        refine ⟨g1, es', ?_, g3⟩
        have : a ≠ r'.arr := fun c => R.apart q j r' hr' (by rw [← c]; exact ha)
        simp only; rw [List.getElem?_set_ne this]; exact g2
      · intro j' a' l' hj' hl'
        simp only at hj' hl'
        by_cases e : j = j'
        · subst e
          rw [List.getElem?_set_self hjl] at hl'
          rw [ha] at hj'
          cases hj'; cases hl'
          exact ⟨h0, List.getElem?_set_self hal⟩
        · rw [List.getElem?_set_ne e] at hl'
          obtain ⟨g1, g2⟩ := R.out j' a' l' hj' hl'
          refine ⟨g1, ?_⟩
          have : a ≠ a' := fun c => e (R.outInj j j' a ha (by rw [c]; exact hj'))
          simp only; rw [List.getElem?_set_ne this]; exact g2
    · left
      simp [step, absStep, ha, hl, store, h1, hi]

theorem abs_bound {s s' : Abs α} {op : Op α} (e : absStep s op = some s') {c : Nat}
    (hb : ∀ (k : Nat) (p : Nat × List α), s.rings[k]? = some p → p.2.length ≤ c) :
    ∀ (k : Nat) (p : Nat × List α), s'.rings[k]? = some p → p.2.length ≤ c + adds [op] := by
  intro k p hp
  cases op with
  | new n =>
    simp only [absStep] at e
    split at e
    · cases e
    · injection e with e
      subst e
      rcases get_append_single hp with hp | ⟨_, ep⟩
      · have := hb k p hp; omega
      · subst ep; simp
  | add q v =>
    simp only [absStep] at e
    cases hq : s.rings[q]? with
    | none => simp [hq] at e
    | some x =>
      simp [hq] at e
      subst e
      simp only at hp
      by_cases g : q = k
      · subst g
        rw [List.getElem?_set_self (get_lt hq)] at hp
        cases hp
        have := hb q x hq
        simp [adds]; omega
      · rw [List.getElem?_set_ne g] at hp
        have := hb k p hp; omega
  | take q =>
    simp only [absStep] at e
    cases hq : s.rings[q]? with
    | none => simp [hq] at e
    | some x =>
      simp [hq] at e
      subst e
      have := hb k p hp; omega
  | change j i v =>
    simp only [absStep] at e
    cases hq : s.outs[j]? with
    | none => simp [hq] at e
    | some x =>
      simp [hq] at e
      obtain ⟨_, e⟩ := e
      subst e
      have := hb k p hp; omega

/-- `adds` counts the calls of `Add`. -/
theorem adds_eq (ops : List (Op α)) : adds ops = ops.countP fun op => match op with | .add _ _ => true | _ => false := by
  induction ops with
  | nil => rfl
  | cons op ops ih => cases op <;> simp [adds, ih]

theorem adds_cons (op : Op α) (ops : List (Op α)) : adds (op :: ops) = adds [op] + adds ops := by
  cases op <;> simp [adds] <;> omega

theorem rel_run (nil : α) {m0 : List (List α)} : ∀ (ops : List (Op α)) (h : Mem α) (s : Abs α) (c : Nat), Rel m0 h s →
    (∀ (k : Nat) (p : Nat × List α), s.rings[k]? = some p → p.2.length ≤ c) → (c : Int) + adds ops < 2 ^ 63 →
    (run nil h ops = none ∧ absRun s ops = none) ∨
      ∃ h' s', run nil h ops = some h' ∧ absRun s ops = some s' ∧ Rel m0 h' s' := by
  intro ops
  induction ops with
  | nil => intro h s _ R _ _; exact .inr ⟨h, s, rfl, rfl, R⟩
  | cons op ops ih =>
    intro h s c R hb hc
    rw [adds_cons] at hc
    have one : (step nil h op = none ∧ absStep s op = none) ∨
      ∃ h' s', step nil h op = some h' ∧ absStep s op = some s' ∧ Rel m0 h' s' := by
      cases op with
      | new n => exact rel_new nil R n
      | add k v => exact rel_add nil R k v (fun k p hp => by have := hb k p hp; simp only [adds] at hc; omega)
      | take k => exact rel_take nil R k
      | change j i v => exact rel_change nil R j i v
    rcases one with ⟨e1, e2⟩ | ⟨h', s', e1, e2, R'⟩
    · left; simp [run, absRun, e1, e2]
    · rcases ih h' s' (c + adds [op]) R' (abs_bound e2 hb) (by omega) with ⟨g1, g2⟩ | ⟨h2, s2, g1, g2, R2⟩
      · left; simp [run, absRun, e1, e2, g1, g2]
      · right; exact ⟨h2, s2, by simp [run, e1, g1], by simp [absRun, e2, g2], R2⟩

theorem rel_init (m : List (List α)) : Rel m (init m) ⟨[], []⟩ :=
  ⟨rfl, rfl, ⟨Nat.le_refl _, by simp [init]⟩, by simp [init], by simp [init], by simp [init], by simp [init], by simp [init]⟩

theorem read_eq {m0 : List (List α)} {h : Mem α} {s : Abs α} (R : Rel m0 h s) : h.read = s.outs.map some := by
  apply List.ext_getElem?
  intro j
  simp only [Mem.read, List.getElem?_map]
  cases ha : h.outs[j]? with
  | none =>
    have : s.outs[j]? = none := by
      rw [List.getElem?_eq_none_iff] at ha ⊢; rw [← R.lenO]; exact ha
    simp [this]
  | some a =>
    obtain ⟨l, hl⟩ := get_same R.lenO ha
    simp [hl, (R.out j a l ha hl).2]

/-! ## Properties -/

/-- **C130.** A program that makes rings, adds to them, takes from them and changes the slices that it got behaves as if every slice were a list
of its own: it panics exactly when the program over lists does, and at its end, hence after every one of its prefixes, each slice reads as its list.
Arrays that existed before are not changed. The bound is the range of the counters. -/
theorem C130_own (nil : α) (m : List (List α)) (ops : List (Op α)) (hb : (adds ops : Int) < 2 ^ 63) :
    (run nil (init m) ops).map (fun h => (h.read, h.mem.take m.length)) = (absRun ⟨[], []⟩ ops).map fun s => (s.outs.map some, m) := by
  rcases rel_run nil ops (init m) ⟨[], []⟩ 0 (rel_init m) (by simp) (by simpa using hb) with ⟨e1, e2⟩ | ⟨h', s', e1, e2, R⟩
  · simp [e1, e2]
  · simp [e1, e2, read_eq R, R.old.2]

/-- Two rings: the slices keep what they were given although their ring is overwritten, and a change of one slice shows nowhere else. -/
example : (run 0 (init [[7]]) [.new 2, .new 1, .add 0 1, .add 0 2, .take 0, .add 1 9, .take 1, .take 0, .change 0 1 5, .add 0 3, .take 0]).map
      (fun h => (h.read, h.mem.take 1)) =
    some ([some [1, 5], some [9], some [1, 2], some [2, 3]], [[7]]) := by
  exact (C130_own 0 [[7]] _ (by simp [adds])).trans rfl

theorem abs_kept : ∀ (ops : List (Op α)) (s0 s : Abs α) (j : Nat) (l : List α), s0.outs[j]? = some l →
    (∀ (i : Nat) (v : α), Op.change j i v ∉ ops) → absRun s0 ops = some s → s.outs[j]? = some l := by
  intro ops
  induction ops with
  | nil => intro s0 s j l hj _ e; cases e; exact hj
  | cons op ops ih =>
    intro s0 s j l hj hno e
    simp only [absRun] at e
    cases h1 : absStep s0 op with
    | none => simp [h1] at e
    | some s1 =>
      simp [h1] at e
      refine ih s1 s j l ?_ (fun i v c => hno i v (List.mem_cons_of_mem _ c)) e
      cases op with
      | new n =>
        simp only [absStep] at h1
        split at h1
        · cases h1
        · cases h1; exact hj
      | add q v =>
        simp only [absStep] at h1
        cases hq : s0.rings[q]? with
        | none => simp [hq] at h1
        | some x => simp [hq] at h1; subst h1; exact hj
      | take q =>
        simp only [absStep] at h1
        cases hq : s0.rings[q]? with
        | none => simp [hq] at h1
        | some x => simp [hq] at h1; subst h1; exact get_append_old _ hj
      | change j' i v =>
        simp only [absStep] at h1
        cases hq : s0.outs[j']? with
        | none => simp [hq] at h1
        | some x =>
          simp [hq] at h1
          obtain ⟨_, h1⟩ := h1
          subst h1
          have : j' ≠ j := by
            intro c; subst c; exact hno i v (List.mem_cons_self ..)
          simp only; rw [List.getElem?_set_ne this]; exact hj

theorem run_append (nil : α) : ∀ (a b : List (Op α)) (s : Mem α), run nil s (a ++ b) = (run nil s a).bind fun s' => run nil s' b := by
  intro a
  induction a with
  | nil => intro b s; rfl
  | cons op a ih =>
    intro b s
    simp only [List.cons_append, run, Option.bind_eq_bind]
    cases step nil s op with
    | none => rfl
    | some s' => simp [ih]

theorem adds_append (a b : List (Op α)) : adds (a ++ b) = adds a + adds b := by
  induction a with
  | nil => simp [adds]
  | cons op a ih => rw [List.cons_append, adds_cons, adds_cons op a, ih]; omega

/-- **C130, one slice.** A slice got from `Take` keeps its elements whatever the program does afterwards (adding, taking, making rings, changing
other slices), unless it changes an element of this slice. -/
theorem C130_kept (nil : α) (m : List (List α)) (before after : List (Op α)) (hb : (adds (before ++ after) : Int) < 2 ^ 63) (h h' : Mem α)
    (e : run nil (init m) before = some h) (e' : run nil (init m) (before ++ after) = some h') (j : Nat) (l : List α)
    (hj : h.read[j]? = some (some l)) (hno : ∀ (i : Nat) (v : α), Op.change j i v ∉ after) : h'.read[j]? = some (some l) := by
  rw [adds_append] at hb
  rw [run_append, e] at e'
  simp only [Option.bind_some] at e'
  rcases rel_run nil before (init m) ⟨[], []⟩ 0 (rel_init m) (by simp) (by simp; omega) with ⟨e1, _⟩ | ⟨h1, s1, e1, e2, R⟩
  · rw [e] at e1; cases e1
  · rw [e] at e1
    cases e1
    have bound : ∀ (ops : List (Op α)) (s s' : Abs α) (c : Nat), (∀ (k : Nat) (p : Nat × List α), s.rings[k]? = some p → p.2.length ≤ c) →
        absRun s ops = some s' → ∀ (k : Nat) (p : Nat × List α), s'.rings[k]? = some p → p.2.length ≤ c + adds ops := by
      intro ops
      induction ops with
      | nil => intro s s' c hc e; cases e; simpa [adds] using hc
      | cons op ops ih =>
        intro s s' c hc e
        simp only [absRun] at e
        cases h1 : absStep s op with
        | none => simp [h1] at e
        | some s1 =>
          simp [h1] at e
          have := ih s1 s' (c + adds [op]) (abs_bound h1 hc) e
          intro k p hp
          have := this k p hp
          rw [adds_cons]; omega
    rcases rel_run nil after h s1 (0 + adds before) R (bound before ⟨[], []⟩ s1 0 (by simp) e2) (by omega) with ⟨g1, _⟩ | ⟨h2, s2, g1, g2, R2⟩
    · rw [e'] at g1; cases g1
    · rw [e'] at g1
      cases g1
      rw [read_eq R] at hj
      rw [read_eq R2]
      simp only [List.getElem?_map, Option.map_eq_some_iff] at hj ⊢
      obtain ⟨x, hx, ex⟩ := hj
      cases ex
      exact ⟨l, abs_kept after s1 s2 j l hx hno g2, rfl⟩

/-- The first slice of a ring of two, after the ring was overwritten and the second slice changed. -/
example : ∃ h', run 0 (init []) ([.new 2, .add 0 1, .add 0 2, .take 0] ++ [.take 0, .change 1 0 5, .add 0 3, .add 0 4]) = some h' ∧
    h'.read[0]? = some (some [1, 2]) := by
  refine ⟨_, rfl, ?_⟩
  refine C130_kept 0 [] [.new 2, .add 0 1, .add 0 2, .take 0] [.take 0, .change 1 0 5, .add 0 3, .add 0 4] (by simp [adds]) _ _ rfl rfl 0 [1, 2] rfl ?_
  intro i v c
  simp at c

end Verif.XRing.Heap

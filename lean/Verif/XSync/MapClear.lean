import Verif.Conc.Prog
/-!
# The field `read` of `xsync.Map` and `Clear`

All operations of `xsync.Map` access the field `read` through `m.read.Load().(readOnly)` and `m.read.Store(readOnly{...})`, except `Clear`,
which overwrites the two words of the `atomic.Value` with a plain assignment (map.go:420). This file models the two words (`sync/atomic`,
value.go, `Value.Load` and `Value.Store`), one memory access per step.

Simplifications: `R` stands for the values of type `readOnly`; an operation of the map is represented by its accesses to `read`, that is by
one call of `load` for each `m.read.Load().(readOnly)` and one call of `store` for a section under `m.mu` with one `m.read.Store`. The two
words are written by `Clear` in any order.
-/
namespace Verif.XSync.MapClear
open Verif.Conc

/-- The word `typ` of the `atomic.Value`. -/
inductive Typ where
  | nil
  /-- `firstStoreInProgress` -/
  | storing
  | readOnly
deriving DecidableEq

/-- The lock (map.go:30) and the two words of the `atomic.Value` (map.go:41). -/
structure G (R : Type) where
  mu : Option Nat := none
  typ : Typ := .nil
  /-- the pointer to the `readOnly` -/
  data : Option R := none

/-- The accesses of the methods to the field `read`. -/
inductive Op (R : Type) where
  /-- `m.read.Load().(readOnly)` with the comma-ok form: map.go:101, 108, 135, 141, 199, 208, 270, 278, 335, 343, 390, 394, 454, 461 -/
  | load
  /-- a section under `m.mu` that stores a new `readOnly`: map.go:156, 222, 292, 463-464, 487 -/
  | store (r : R)
  /-- map.go:418-425 -/
  | clear

/-- Results of the accesses. -/
inductive Res (R : Type) where
  /-- the zero `readOnly` (the type assertion fails: the value is a nil interface) -/
  | zero
  | got (r : R)
  | unit
  | panic

/-- Points of the accesses, inside `atomic.Value` and `Clear` (map.go:418-425). -/
inductive Pt where
  | start
  /-- `Load` has seen the type `readOnly` -/
  | data
  /-- the lock is held -/
  | locked
  /-- the first `Store`: `typ` is `firstStoreInProgress` -/
  | first
  /-- the first `Store`: the data are written -/
  | typ
  /-- `Clear` has cleared `typ` but not `data` -/
  | clearData
  /-- `Clear` has cleared `data` but not `typ` -/
  | clearTyp
  | unlock
deriving DecidableEq

variable {R : Type}

/-- `Value.Load` (load `typ`; nil or in progress: the nil interface; load `data`), followed by the type assertion, which copies the `readOnly` the
word `data` points to: a nil pointer panics. `Value.Store` (first store: `typ := firstStoreInProgress`, `data`, `typ`; otherwise `data`).
`Clear`: two plain writes under the lock. -/
def step (g : G R) (i : Nat) (op : Op R) (s : Pt) (c : Nat) : Option (G R × (Pt ⊕ Res R)) :=
  match op, s with
  | .load, .start => some (g, if g.typ = .readOnly then .inl .data else .inr .zero)
  | .load, .data => match g.data with
    | some r => some (g, .inr (.got r))
    | none => some (g, .inr .panic)
  | .store _, .start | .clear, .start => if g.mu.isSome then none else some ({ g with mu := some i }, .inl .locked)
  | .store r, .locked => if g.typ = .readOnly then some ({ g with data := some r }, .inl .unlock) else some ({ g with typ := .storing }, .inl .first)
  | .store r, .first => some ({ g with data := some r }, .inl .typ)
  | .store _, .typ => some ({ g with typ := .readOnly }, .inl .unlock)
  | .clear, .locked => if c = 0 then some ({ g with typ := .nil }, .inl .clearData) else some ({ g with data := none }, .inl .clearTyp)
  | .clear, .clearData => some ({ g with data := none }, .inl .unlock)
  | .clear, .clearTyp => some ({ g with typ := .nil }, .inl .unlock)
  | .store _, .unlock | .clear, .unlock => some ({ g with mu := none }, .inr .unit)
  | _, _ => none

/-- All interleavings of the accesses. -/
def prog : Prog (G R) (Op R) (Res R) Pt where
  init := {}
  begin _ := .start
  step := step

/-! ## C24 -/

/-- **C24 is false.** A `Load` that overlaps a `Clear` can panic, although the map is used as intended (also if the two words were written
at the same time: here the `Load` reads the type before and the data after the `Clear`). -/
theorem C24_clear_panics_refuted : ∃ m, (prog (R := Nat)).mach.Exec m
    [.inv 1 (.store 5), .ret 1 .unit, .inv 2 .load, .inv 3 .clear, .ret 3 .unit, .ret 2 .panic] :=
  Mach.exists_exec _ [.inv 1 (.store 5), .run 1, .run 1, .run 1, .run 1, .run 1, .run 1, .inv 2 .load, .run 2, .inv 3 .clear, .run 3, .run 3, .run 3, .run 3,
    .run 3, .run 2, .run 2] _ rfl

/-- Some `Clear` overlaps the call `i`. -/
def Clears (H : List (Ev (Op R) (Res R))) (i : Nat) : Prop := ∃ j, Ev.inv j .clear ∈ H ∧ ¬ Before H j i ∧ ¬ Before H i j

/-- Proof only: part of an invariant or simulation; models no code. -/
structure Inv (g : G R) (v : View (Op R) (Res R) Pt) (H : List (Ev (Op R) (Res R))) : Prop where
  invoked : ∀ i op, Ev.inv i op ∈ H ↔ ∃ x, v i = some (op, x)
  ret : ∀ i r, Ev.ret i r ∈ H → ∃ op, v i = some (op, .inr r)
  mu : ∀ i op s, v i = some (op, .inl s) → op ≠ .load → s ≠ .start → g.mu = some i
  points : ∀ i op s, v i = some (op, .inl s) → op = .load → s = .start ∨ s = .data
  torn : g.typ = .readOnly → g.data = none → ∃ j, v j = some (.clear, .inl .clearTyp)
  atTyp : ∀ i op, v i = some (op, .inl .typ) → g.data ≠ none
  atData : ∀ i op, v i = some (op, .inl .clearData) → g.typ = .nil
  atFirst : ∀ i op, v i = some (op, .inl .first) → g.typ = .storing
  load : ∀ i, v i = some (.load, .inl .data) → g.data = none → Clears H i
  panic : ∀ i op, v i = some (op, .inr .panic) → op = .load ∧ Clears H i

theorem Clears.append {H : List (Ev (Op R) (Res R))} {i : Nat} (h : Clears H i) {e : Ev (Op R) (Res R)}
    (he : ∀ j op, e = .inv j op → j ≠ i ∧ ∀ op', Ev.inv j op' ∉ H) : Clears (H ++ [e]) i := by
  obtain ⟨j, h1, h2, h3⟩ := h
  refine ⟨j, by simp [h1], ?_, ?_⟩
  · intro hb
    rcases before_append hb with hb | ⟨op, _, hb, _⟩
    · exact h2 hb
    · exact (he i op hb).1 rfl
  · intro hb
    rcases before_append hb with hb | ⟨op, _, hb, _⟩
    · exact h3 hb
    · exact (he j op hb).2 _ h1

/-- A pending `Clear` overlaps every pending call. -/
theorem clears_of_pending {v : View (Op R) (Res R) Pt} {H : List (Ev (Op R) (Res R))} (h1 : ∀ i op, Ev.inv i op ∈ H ↔ ∃ x, v i = some (op, x))
    (h2 : ∀ i r, Ev.ret i r ∈ H → ∃ op, v i = some (op, .inr r)) {j : Nat} {s : Pt} (hj : v j = some (.clear, .inl s)) {i : Nat} {op : Op R} {t : Pt}
    (hi : v i = some (op, .inl t)) : Clears H i := by
  have key : ∀ i op (t : Pt), v i = some (op, .inl t) → ∀ j, ¬ Before H i j := by
    intro i op t hi j hb
    obtain ⟨⟨r, hr⟩, _⟩ := before_mem hb
    obtain ⟨op, ho⟩ := h2 i r hr
    rw [hi] at ho
    simp at ho
  exact ⟨j, (h1 j .clear).2 ⟨_, hj⟩, key j _ _ hj i, key i _ _ hi j⟩

set_option maxHeartbeats 800000 in
theorem inv_step {g g' : G R} {v : View (Op R) (Res R) Pt} {H : List (Ev (Op R) (Res R))} {i c : Nat} {op : Op R} {s : Pt} {x : Pt ⊕ Res R}
    (hI : Inv g v H) (hv : v i = some (op, .inl s)) (h : step g i op s c = some (g', x)) : Inv g' (upd v i (some (op, x))) H := by
  have hcl := fun (j : Nat) (s : Pt) (hj : v j = some (.clear, .inl s)) (i : Nat) (op : Op R) (t : Pt) (hi : v i = some (op, .inl t)) =>
    clears_of_pending hI.invoked hI.ret hj hi
  obtain ⟨a1, a2, a3, a4, a5, a6, a7, a8, a9, a10⟩ := hI
  have b1 : ∀ j op', Ev.inv j op' ∈ H ↔ ∃ y, upd v i (some (op, x)) j = some (op', y) := by
    intro j op'
    rw [a1]
    by_cases hj : j = i
    · subst hj; simp [hv]
    · simp [upd_ne _ _ hj]
  have b2 : ∀ j r, Ev.ret j r ∈ H → ∃ op', upd v i (some (op, x)) j = some (op', .inr r) := by
    intro j r hr
    obtain ⟨op', ho⟩ := a2 j r hr
    have hj : j ≠ i := by rintro rfl; simp [hv] at ho
    exact ⟨op', by rw [upd_ne _ _ hj]; exact ho⟩
  have hu : ∀ j, upd v i (some (op, x)) j = if j = i then some (op, x) else v j := by
    intro j; by_cases hj : j = i
    · subst hj; simp
    · simp [hj, upd_ne _ _ hj]
  have hmu : ∀ j op' s', v j = some (op', .inl s') → op' ≠ .load → s' ≠ .start → op ≠ .load → s ≠ .start → j = i := by
    intro j op' s' hj h1 h2 h3 h4
    have := a3 j op' s' hj h1 h2
    rw [a3 i op s hv h3 h4] at this
    simpa using this.symm
  refine ⟨b1, b2, ?_, ?_, ?_, ?_, ?_, ?_, ?_, ?_⟩ <;> simp only [hu] <;> clear b1 b2 a1 a2 hu <;> cases op <;> cases s <;> simp only [step] at h <;>
    grind

theorem inv_exec {m : Conf (G R) (Op R) (Res R) Pt} {H : List (Ev (Op R) (Res R))} (h : prog.mach.Exec m H) : Inv m.g m.view H := by
  refine prog.induct Inv ?_ ?_ ?_ ?_ h
  · constructor <;> simp [prog]
  · intro g v H i op hI hv
    have hc : ∀ j, j ≠ i → Clears H j → Clears (H ++ [.inv i op]) j := by
      intro j hj hc
      refine hc.append ?_
      rintro j' op' he
      simp only [Ev.inv.injEq] at he
      obtain ⟨rfl, rfl⟩ := he
      refine ⟨Ne.symm hj, fun op' hm => ?_⟩
      obtain ⟨x, hx⟩ := (hI.invoked _ _).1 hm
      simp [hv] at hx
    have hu : ∀ j, upd v i (some (op, .inl (prog.begin op))) j = if j = i then some (op, .inl .start) else v j := by
      intro j; by_cases hj : j = i
      · subst hj; simp [prog]
      · simp [hj, upd_ne _ _ hj]
    obtain ⟨a1, a2, a3, a4, a5, a6, a7, a8, a9, a10⟩ := hI
    constructor <;> simp only [hu, List.mem_append, List.mem_singleton] <;> grind
  · intro g v H i op s c g' x hI hv hs
    exact inv_step hI hv hs
  · intro g v H i op r hI hv
    have hc : ∀ j, Clears H j → Clears (H ++ [.ret i r]) j := by
      intro j hc
      exact hc.append (by simp)
    obtain ⟨a1, a2, a3, a4, a5, a6, a7, a8, a9, a10⟩ := hI
    constructor <;> (try simp only [List.mem_append, List.mem_singleton]) <;> grind

/-- **C24 (partial).** An access to `read` panics only if a `Clear` overlaps it: a call that panics has been invoked as `load`, and there is a
`Clear` neither of whose two orders with the call holds. (Missing: that it never panics, which is false.) -/
theorem C24_clear_panics_partial {m : Conf (G R) (Op R) (Res R) Pt} {H : List (Ev (Op R) (Res R))} (h : prog.mach.Exec m H) {i : Nat}
    (hp : Ev.ret i .panic ∈ H) : Ev.inv i .load ∈ H ∧ ∃ j, Ev.inv j .clear ∈ H ∧ ¬ Before H j i ∧ ¬ Before H i j := by
  have hI := inv_exec h
  obtain ⟨op, ho⟩ := hI.ret i _ hp
  obtain ⟨rfl, hc⟩ := hI.panic i op ho
  exact ⟨(hI.invoked i _).2 ⟨_, ho⟩, hc⟩

/-- A `Load` between two `Clear`s and a `Load` during a first `Store`, without panic. -/
example : ∃ m, (prog (R := Nat)).mach.Exec m
    [.inv 1 .clear, .ret 1 .unit, .inv 2 (.store 5), .inv 3 .load, .ret 3 .zero, .ret 2 .unit, .inv 4 .load, .ret 4 (.got 5), .inv 5 .clear, .inv 6 .load,
     .ret 6 .zero, .ret 5 .unit] :=
  Mach.exists_exec _ [.inv 1 .clear, .run 1, .run 1, .run 1, .run 1, .run 1, .inv 2 (.store 5), .run 2, .run 2, .run 2, .inv 3 .load, .run 3, .run 3,
    .run 2, .run 2, .run 2, .inv 4 .load, .run 4, .run 4, .run 4, .inv 5 .clear, .run 5, .run 5, .inv 6 .load, .run 6, .run 6, .run 5, .run 5, .run 5] _ rfl

end Verif.XSync.MapClear

import Verif.Conc.Run
import Verif.XSync.MapConcProps
/-!
# The work of the concurrent map: lemmas

Every step of `MapConc.step` takes constant time, so that the number of steps is the running time.
-/
namespace Verif.XSync.MapConc
open Verif.Conc Verif.Go

variable {K V : Type} [DecidableEq K] [DecidableEq V]

/-- A step of the map. -/
abbrev MTick (K V : Type) := Tick (G K V) (Op K V) (Pt K V)

/-- A compare-and-swap that fails, because another call has changed the entry since it was loaded (map.go:173, 251, 317, 371, 433, 509). -/
def Retry (t : MTick K V) : Bool :=
  match t.s with
  | .cas _ e p _ | .delCas e p => decide (t.g.p e ≠ p)
  | .buildC _ _ _ e => decide (t.g.p e ≠ .nil)
  | _ => false

/-- The number of entries of the map that `Range` is going to iterate over, in the step in which it is chosen (map.go:454-471). -/
def snap (t : MTick K V) : Nat :=
  match t.op, t.s with
  | .range _, .start | .range _, .locked => if t.g.amended then 0 else t.g.read.length
  | .range _, .rpromote => (t.g.dirty.getD []).length
  | _, _ => 0

/-! ## The weight of a point: the number of steps until the call returns, plus three for a miss still to be counted -/

/-- Proof only: part of a measure; models no code. -/
def Cont.wt : Cont K V → Nat
  | .ret _ => 0
  | .eload _ => 1
  | .del _ => 2
  | .iter m => 2 * m.length + 1

/-- Proof only: part of a measure; models no code. -/
def Mode.wt : Mode → Nat
  | .free => 12
  | .inRead => 2
  | .inDirty => 7

/-- Proof only: part of a measure; models no code. -/
def Pt.wt : Pt K V → Nat
  | .start => 15
  | .tryLoad m _ => 2 + m.wt
  | .call m _ _ => 1 + m.wt
  | .cas m _ _ _ => m.wt
  | .reload m _ _ => 1 + m.wt
  | .lock => 11
  | .locked => 10
  | .unexp _ => 5
  | .storeLocked _ => 2
  | .miss k => 6 + k.wt
  | .promote k => 2 + k.wt
  | .rpromote => 3
  | .build0 _ => 6
  | .build _ todo => 3 * todo.length + 5
  | .buildE _ rest _ _ => 3 * rest.length + 7
  | .buildC _ rest _ _ => 3 * rest.length + 6
  | .amend _ => 4
  | .addCall => 3
  | .add _ => 2
  | .unlock k => 1 + k.wt
  | .eload _ => 1
  | .del _ => 2
  | .delCas _ _ => 1
  | .iter todo _ => 2 * todo.length + 1
  | .icall todo _ _ _ => 2 * todo.length + 2

/-- Proof only: part of a measure; models no code. -/
def wt : Pt K V ⊕ Res K V → Nat
  | .inl s => s.wt
  | .inr _ => 0

/-- The work that has been prepaid: by misses, for the next copy of `read.m`. -/
def pot (g : G K V) : Nat := 3 * (g.misses + if g.dirty.isSome then 0 else g.read.length)

/-- The misses counted pay for copying the map that is promoted. -/
def PtOk (g : G K V) (op : Op K V) : Pt K V → Prop
  | .promote _ => (g.dirty.getD []).length ≤ g.misses
  | .amend rm => rm = g.read
  | .rpromote => ∃ f, op = .range f
  | _ => True

omit [DecidableEq K] [DecidableEq V] in
theorem wt_inl (s : Pt K V) : wt (.inl s : Pt K V ⊕ Res K V) = s.wt := rfl

omit [DecidableEq K] [DecidableEq V] in
theorem wt_after (m : Mode) (r : Res K V) : wt (after m r) + 1 ≤ m.wt := by
  cases m <;> simp [after, wt, Pt.wt, Cont.wt, Mode.wt]

omit [DecidableEq K] [DecidableEq V] in
theorem wt_decide (op : Op K V) (m : Mode) (e : Nat) (p : Ptr V) (d : Dec K V) (hd : d ≠ .call) : wt (decide' op m e p d) + 1 ≤ 1 + m.wt := by
  cases d with
  | fail => cases m <;> simp [decide', after, wt, Pt.wt, Cont.wt, Mode.wt]
  | done r => have := wt_after m r; simp only [decide']; omega
  | cas x => simp [decide', wt, Pt.wt]; omega
  | call => exact absurd rfl hd

omit [DecidableEq K] [DecidableEq V] in
theorem wt_first (op : Op K V) (m : Mode) (e : Nat) (p : Ptr V) (d : Dec K V) : wt (decide' op m e p d) + 1 ≤ 2 + m.wt := by
  by_cases hd : d = .call
  · subst hd; simp [decide', wt, Pt.wt]; omega
  · have := wt_decide op m e p d hd; omega

omit [DecidableEq K] [DecidableEq V] in
theorem again_ne_call (x : V × Option V) (op : Op K V) (p : Ptr V) : again x op p ≠ .call := by
  cases op <;> cases p <;> simp [again]

omit [DecidableEq V] in
theorem wt_start (g : G K V) (i c : Nat) (op : Op K V) : wt (startStep g op) + 1 ≤ 15 + 2 * snap ⟨g, i, op, .start, c⟩ := by
  cases op <;> simp only [startStep, snap] <;> (try split) <;> (try split) <;> simp [wt, Pt.wt, Mode.wt] <;> omega

omit [DecidableEq V] in
theorem wt_locked (g : G K V) (i c : Nat) (op : Op K V) :
    (lockedStep g op).2.wt + 1 ≤ 10 + 2 * snap ⟨g, i, op, .locked, c⟩ ∧ pot (lockedStep g op).1 = pot g := by
  cases op <;> simp only [lockedStep, snap] <;> (try split) <;> (try split) <;> (try split) <;> simp [Pt.wt, Cont.wt, Mode.wt, pot] <;> omega

omit [DecidableEq V] in
theorem pot_setDirty {g g' : G K V} {k : K} {e : Nat} (h : g.setDirty k e = some g') : pot g' = pot g := by
  unfold G.setDirty at h
  split at h <;> simp at h
  subst h
  simp [pot, *]

/-- Every step is paid for by the weights, the misses, the failed compare-and-swaps and the maps that `Range` iterates over. -/
theorem step_wt {g g' : G K V} {i c : Nat} {op : Op K V} {s : Pt K V} {x : Pt K V ⊕ Res K V} (hp : PtOk g op s) (h : step g i op s c = some (g', x)) :
    1 + wt x + pot g' ≤ s.wt + pot g + 2 * (if Retry ⟨g, i, op, s, c⟩ then 1 else 0) + 5 * snap ⟨g, i, op, s, c⟩ := by
  cases s with
  | start =>
    simp only [step, Option.some.injEq, Prod.mk.injEq] at h
    obtain ⟨rfl, rfl⟩ := h
    have := wt_start g i c op
    simp only [Pt.wt]; omega
  | locked =>
    simp only [step, Option.some.injEq, Prod.mk.injEq] at h
    obtain ⟨rfl, rfl⟩ := h
    have := wt_locked g i c op
    have e : (Pt.locked : Pt K V).wt = 10 := rfl; rw [wt_inl, e]; omega
  | tryLoad m e =>
    simp only [step, Option.some.injEq, Prod.mk.injEq] at h
    obtain ⟨rfl, rfl⟩ := h
    have := wt_first op m e (g.p e) (first op (g.p e))
    simp only [Pt.wt]; omega
  | reload m e x =>
    simp only [step, Option.some.injEq, Prod.mk.injEq] at h
    obtain ⟨rfl, rfl⟩ := h
    have := wt_decide op m e (g.p e) (again x op (g.p e)) (again_ne_call x op _)
    simp only [Pt.wt]; omega
  | call m e p =>
    simp only [step] at h
    split at h <;> simp at h
    obtain ⟨rfl, rfl⟩ := h
    simp [Pt.wt, wt, pot]; omega
  | cas m e p x =>
    simp only [step] at h
    split at h <;> simp at h
    · obtain ⟨rfl, rfl⟩ := h
      have := wt_after m (okRes x op)
      simp only [Pt.wt]
      have hpot : pot (g.setP e (.cell i x.1)) = pot g := rfl
      omega
    · obtain ⟨rfl, rfl⟩ := h
      simp [Pt.wt, wt, Retry, *]; omega
  | lock =>
    simp only [step] at h
    split at h <;> simp at h
    obtain ⟨rfl, rfl⟩ := h
    simp [Pt.wt, wt, pot]; omega
  | unexp e =>
    simp only [step] at h
    have hw : ∀ o : Op K V, (afterUnexp o e).wt ≤ 4 := by intro o; cases o <;> simp [afterUnexp, Pt.wt, Mode.wt]
    have hwo := hw op
    split at h
    · split at h
      · simp at h
      · split at h <;> simp at h
        · obtain ⟨rfl, rfl⟩ := h
          (have hpot : ∀ x, pot (g.setP e x) = pot g := fun _ => rfl); simp [Pt.wt, wt, hpot]; omega
        · obtain ⟨rfl, rfl⟩ := h
          rename_i hd
          rw [pot_setDirty hd]
          have hpot : pot (g.setP e .nil) = pot g := rfl
          have e2 : (Pt.unexp e : Pt K V).wt = 5 := rfl; rw [wt_inl, e2, hpot]; omega
    · simp at h
      obtain ⟨rfl, rfl⟩ := h
      have e2 : (Pt.unexp e : Pt K V).wt = 5 := rfl; rw [wt_inl, e2]; omega
  | storeLocked e =>
    simp only [step] at h
    split at h <;> simp at h
    obtain ⟨rfl, rfl⟩ := h
    (have hpot : ∀ x, pot (g.setP e x) = pot g := fun _ => rfl); simp [Pt.wt, wt, hpot, Cont.wt]; omega
  | miss k =>
    simp only [step, Option.some.injEq, Prod.mk.injEq] at h
    obtain ⟨rfl, rfl⟩ := h
    split <;> simp [Pt.wt, wt, pot] <;> omega
  | promote k =>
    simp only [step, Option.some.injEq, Prod.mk.injEq] at h
    obtain ⟨rfl, rfl⟩ := h
    simp only [PtOk] at hp
    simp [Pt.wt, wt, pot, G.promoted]; omega
  | rpromote =>
    simp only [step, Option.some.injEq, Prod.mk.injEq] at h
    obtain ⟨rfl, rfl⟩ := h
    obtain ⟨f, rfl⟩ := hp
    simp [Pt.wt, wt, pot, G.promoted, Cont.wt, snap]; omega
  | build0 rm =>
    simp only [step] at h
    split at h <;> simp at h <;> obtain ⟨rfl, rfl⟩ := h <;> simp [Pt.wt, wt, pot, *] <;> omega
  | build rm todo =>
    simp only [step] at h
    split at h
    · simp at h; obtain ⟨rfl, rfl⟩ := h; simp [Pt.wt, wt]; omega
    · rename_i hne
      split at h <;> simp at h
      obtain ⟨rfl, rfl⟩ := h
      have hl : 0 < todo.length := List.length_pos_iff.2 hne
      have := Nat.mod_lt c hl
      simp [Pt.wt, wt, List.length_eraseIdx, this]; omega
  | buildE rm rest k e =>
    simp only [step] at h
    split at h
    · simp at h; obtain ⟨rfl, rfl⟩ := h; simp [Pt.wt, wt]; omega
    · simp at h; obtain ⟨rfl, rfl⟩ := h; simp [Pt.wt, wt]; omega
    · split at h <;> simp at h
      · obtain ⟨rfl, rfl⟩ := h; simp [Pt.wt, wt]; omega
      · obtain ⟨rfl, rfl⟩ := h
        rename_i hd
        simp [Pt.wt, wt, pot_setDirty hd]; omega
  | buildC rm rest k e =>
    simp only [step] at h
    split at h <;> simp at h <;> obtain ⟨rfl, rfl⟩ := h
    · (have hpot : ∀ x, pot (g.setP e x) = pot g := fun _ => rfl); simp [Pt.wt, wt, hpot]; omega
    · simp [Pt.wt, wt, Retry, *]; omega
  | amend rm =>
    simp only [step] at h
    have hw : ∀ s', afterAmend op = some s' → s'.wt ≤ 3 := by cases op <;> simp [afterAmend, Pt.wt]
    split at h <;> simp at h
    obtain ⟨rfl, rfl⟩ := h
    rename_i s' hs
    have := hw s' hs
    simp only [PtOk] at hp
    subst hp
    have hpot : pot { g with amended := true } = pot g := rfl
    have e : (Pt.amend g.read : Pt K V).wt = 4 := rfl; rw [wt_inl, e, hpot]; omega
  | addCall =>
    simp only [step] at h
    split at h <;> simp at h
    obtain ⟨rfl, rfl⟩ := h
    simp [Pt.wt, wt, pot]; omega
  | add v =>
    simp only [step] at h
    split at h
    · simp at h
    · split at h <;> simp at h <;> obtain ⟨rfl, rfl⟩ := h
      · simp [Pt.wt, wt]; omega
      · rename_i hd
        have := pot_setDirty hd
        simp only [pot, Pt.wt, wt, Cont.wt] at this ⊢; omega
  | unlock k =>
    simp only [step, Option.some.injEq, Prod.mk.injEq] at h
    obtain ⟨rfl, rfl⟩ := h
    cases k <;> simp [Pt.wt, wt, pot, Cont.go, Cont.wt] <;> omega
  | eload e =>
    simp only [step, Option.some.injEq, Prod.mk.injEq] at h
    obtain ⟨rfl, rfl⟩ := h
    simp [Pt.wt, wt]; omega
  | del e =>
    simp only [step] at h
    split at h <;> simp at h <;> obtain ⟨rfl, rfl⟩ := h <;> simp [Pt.wt, wt] <;> omega
  | delCas e p =>
    simp only [step] at h
    split at h <;> simp at h <;> obtain ⟨rfl, rfl⟩ := h
    · (have hpot : ∀ x, pot (g.setP e x) = pot g := fun _ => rfl); simp [Pt.wt, wt, hpot]; omega
    · simp [Pt.wt, wt, Retry, *]; omega
  | iter todo vis =>
    simp only [step] at h
    split at h
    · simp at h; obtain ⟨rfl, rfl⟩ := h; simp [Pt.wt, wt]; omega
    · rename_i hne
      have hl : 0 < todo.length := List.length_pos_iff.2 hne
      have := Nat.mod_lt c hl
      split at h
      · simp at h
      · split at h <;> simp at h <;> obtain ⟨rfl, rfl⟩ := h <;> simp [Pt.wt, wt, List.length_eraseIdx, this] <;> omega
  | icall todo vis k v =>
    simp only [step] at h
    split at h <;> simp at h
    obtain ⟨rfl, rfl⟩ := h
    split <;> simp [Pt.wt, wt] <;> omega

end Verif.XSync.MapConc

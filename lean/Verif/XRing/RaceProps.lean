import Verif.XRing.ConcProps
/-! # The ring has no data races (C113) -/
namespace Verif.XRing.Conc
open Verif.Go Verif.Conc

variable {α : Type}

/-- The plain memory locations of a ring. All slots count as one location, so that a race on any of them would be seen. -/
inductive Loc where
  /-- xring.go:24 `index` -/
  | index
  /-- the slots -/
  | slots

/-- The access a call is about to make: the location, and whether it is a write. -/
def PC.access : PC α → Option (Loc × Bool)
  | .addSlot _ | .addLoad _ | .takeCmp | .takeBig | .takeSmall => some (.index, false)
  | .addSet _ _ => some (.index, true)
  | .addStore _ _ => some (.slots, true)
  | .takeLoop _ _ _ _ => some (.slots, false)
  | _ => none

theorem access_held {p : PC α} {l : Loc} {w : Bool} (h : p.access = some (l, w)) : p.writes ∨ w = false ∧ p.reads := by
  cases p <;> simp_all [PC.access, PC.writes, PC.reads]

/-- **C113.** No data races on a ring: when two calls are about to access the same location, both are about to read it. -/
theorem C113_ring_no_race (r : Ring α) {m : St α} {H : List (Ev (Call α) (Res α))} (h : (machine r).Exec m H) {i j : Nat} (hij : i ≠ j)
    {l : Loc} {w w' : Bool} (hi : (m.pc i).access = some (l, w)) (hj : (m.pc j).access = some (l, w')) : w = false ∧ w' = false := by
  obtain ⟨g, _, _, hS⟩ := simulate (Sim r) (sim_init r) (fun m g l m' hg hs hst => sim_step r m g l m' hg hs hst) h
  rcases access_held hi with h1 | ⟨h1, h1'⟩
  · have hw := (hS.writer i).2 h1
    rcases access_held hj with h2 | ⟨_, h2⟩
    · have hw' := (hS.writer j).2 h2
      rw [hw, Option.some.injEq] at hw'
      exact absurd hw' hij
    · have := (hS.reader j).2 h2
      rw [hS.excl i hw] at this
      simp at this
  · rcases access_held hj with h2 | ⟨h2, _⟩
    · have := (hS.reader i).2 h1'
      rw [hS.excl j ((hS.writer j).2 h2)] at this
      simp at this
    · exact ⟨h1, h2⟩

/-- Two `Take`s reading the slots at the same time, with an `Add` waiting. -/
theorem demoReaders : ∃ m, (machine (⟨[0, 0], 1⟩ : Ring Nat)).Exec m [.inv 1 .take, .inv 2 .take, .inv 3 (.add 5)] ∧
    (m.pc 1).access = some (.slots, false) ∧ (m.pc 2).access = some (.slots, false) :=
  Mach.exists_exec_state _ [.inv 1 .take, .inv 2 .take, .inv 3 (.add 5), .run 1, .run 1, .run 1, .run 1, .run 2, .run 2, .run 2, .run 2] _ _
    (by exact ⟨rfl, rfl, rfl⟩)

example := demoReaders.imp fun _ h => C113_ring_no_race _ h.1 (i := 1) (j := 2) (by decide) h.2.1 h.2.2

end Verif.XRing.Conc

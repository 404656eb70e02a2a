import Verif.XSync.MapMemProps
import Verif.XSync.MapConcEnds
/-!
# Concurrent calls of `xsync.Map` return under every schedule, access by access (C115)
-/
namespace Verif.XSync.MapMem
open Verif.Conc Verif.Go
open Verif.XSync.MapConc (Ptr Op Res G Pt)

variable {K V : Type} [DecidableEq K] [DecidableEq V]

/-- `t'` can follow `t` while nothing happens in the program with map values. -/
def Hush (t' t : Cmd K V) : Prop := (∃ z, quiet t z = true) ∧ ∃ (M : Mem K V) (i c : Nat) (M' : Mem K V), exec M i t c = some (M', .inl t')

theorem acc_loud {t : Cmd K V} (h : ∀ z, quiet t z = false) : Acc Hush t := ⟨_, fun _ ⟨⟨z, hz⟩, _⟩ => by simp [h z] at hz⟩

theorem acc_goto {l : Label K V} (h : Acc Hush (code l)) : Acc Hush (.goto l : Cmd K V) :=
  ⟨_, fun _ ⟨_, _, _, _, _, he⟩ => by simp only [exec, Option.some.injEq, Prod.mk.injEq, Sum.inl.injEq] at he; rw [← he.2]; exact h⟩

theorem acc_next {m : Option Nat} {seen : List K} {k : Option (K × Nat) → Cmd K V} (h : ∀ x, Acc Hush (k x)) : Acc Hush (.mapNext m seen k : Cmd K V) := by
  refine ⟨_, fun t' ⟨_, M, i, c, M', he⟩ => ?_⟩
  simp only [exec] at he
  split at he
  · simp only [Option.some.injEq, Prod.mk.injEq, Sum.inl.injEq] at he; rw [← he.2]; exact h _
  · split at he <;> simp only [Option.some.injEq, Prod.mk.injEq, Sum.inl.injEq, reduceCtorEq] at he
    rw [← he.2]; exact h _

theorem acc_ret {r : Res K V} : Acc Hush (.ret r : Cmd K V) := ⟨_, fun _ ⟨_, _, _, _, _, he⟩ => by simp [exec] at he⟩

theorem acc_code (l : Label K V) : Acc Hush (code l) := by
  have loadPtr : ∀ e (k : Ptr V → Cmd K V), Acc Hush (.loadPtr e k) := fun _ _ => acc_loud fun _ => rfl
  cases l with
  | rangeLoop f m seen vis =>
    refine acc_next fun x => ?_
    cases x with
    | none => exact acc_ret
    | some y => exact loadPtr _ _
  | dirtyLoop op rm m seen =>
    refine acc_next fun x => ?_
    cases x with
    | none => exact acc_loud fun _ => rfl
    | some y => exact acc_goto (acc_loud fun _ => rfl)
  | _ => exact acc_loud fun _ => rfl

theorem acc_hush (t : Cmd K V) : Acc Hush t := by
  induction t with
  | loadRead | storeRead | loadPtr | storePtr | casPtr | lock | unlock | incMisses | newEntry | user => exact acc_loud fun _ => rfl
  | goto l => exact acc_goto (acc_code l)
  | ret r => exact acc_ret
  | mapNext m seen k ih => exact acc_next ih
  | getDirty k ih | getMisses k ih | mapLen m k ih | mapGet m key k ih | newMap k ih =>
    refine ⟨_, fun t' ⟨_, M, i, c, M', he⟩ => ?_⟩
    simp only [exec, Option.some.injEq, Prod.mk.injEq, Sum.inl.injEq] at he
    rw [← he.2]; exact ih _
  | setDirty x k ih | setMisses x k ih =>
    refine ⟨_, fun t' ⟨_, M, i, c, M', he⟩ => ?_⟩
    simp only [exec, Option.some.injEq, Prod.mk.injEq, Sum.inl.injEq] at he
    rw [← he.2]; exact ih
  | mapSet m key e k ih | mapDel m key k ih =>
    refine ⟨_, fun t' ⟨_, M, i, c, M', he⟩ => ?_⟩
    simp only [exec] at he
    split at he <;> simp only [Option.some.injEq, Prod.mk.injEq, Sum.inl.injEq, reduceCtorEq, and_false] at he
    all_goals rw [← he.2]; exact ih

/-- **C115** at the level of memory accesses. Without new calls every execution of concurrent calls ends, whatever the schedule. -/
theorem C115_mem_ends {m : State K V} {H : List (Ev (Op K V) (Res K V))} (h : prog.mach.Exec m H) : Acc prog.Moves m := by
  obtain ⟨m', h', hR⟩ := refines h
  refine Prog.ends_of_refine (Q := MapConc.prog) (N := Hush) acc_hush
    (fun M v (m' : Conf (G K V) (Op K V) (Res K V) (Pt K V)) => (∃ H, MapConc.prog.mach.Exec m' H) ∧ Rel M m'.g v m'.view)
    ?_ h ⟨⟨H, h'⟩, hR⟩ (MapConc.C115_ends h')
  rintro M v m1 i op s c M' x ⟨⟨H1, h1⟩, hR1⟩ hv hs
  rcases rel_step h1 hR1 hv hs with ⟨k1, k2⟩ | ⟨s', c', g', x', k1, k2, k3⟩
  · refine .inl ⟨⟨⟨H1, h1⟩, k1⟩, fun s' e => ?_⟩
    subst e
    have := hR1.2 i
    rw [hv] at this
    obtain ⟨z, hz, _⟩ := this
    exact ⟨⟨z, k2 z hz⟩, M, i, c, M', hs⟩
  · obtain ⟨m2, f1, f2, f3, f4⟩ := Prog.step_moves (Q := MapConc.prog) k1 k2
    exact .inr ⟨m2, f1, ⟨H1, f2 _ h1⟩, by rw [f3, f4]; exact k3⟩

/-- **C115** at the level of memory accesses. Where nothing can move any more, every call has returned. -/
theorem C115_mem_returns {m : State K V} {H : List (Ev (Op K V) (Res K V))} (h : prog.mach.Exec m H) (hs : ∀ j c, prog.mach.next m j c = none)
    {i : Nat} {op : Op K V} (hi : Ev.inv i op ∈ H) : ∃ r, Ev.ret i r ∈ H := by
  refine Classical.byContradiction fun hr => ?_
  obtain ⟨m', H', r, h1, h2⟩ := C92_no_deadlock h hi fun r hr' => hr ⟨r, hr'⟩
  have := List.append_right_eq_self.mp (prog.stuck_leads hs h1)
  simp [this] at h2

example := demoWait.imp fun _ h => C115_mem_ends h.1
example := demo.elim fun _ h => C115_mem_returns h (prog.stuck_of_returned h (returned_spec rfl)) (i := 4) (op := .loadOrStore 0 6) (by simp)

end Verif.XSync.MapMem

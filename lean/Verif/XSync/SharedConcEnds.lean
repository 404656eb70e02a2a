import Verif.XSync.SharedConcLive
import Verif.XSync.MapConcEnds
import Verif.Conc.ClientEnds
/-!
# Concurrent calls of `xsync.SharedMap` return under every schedule (C115)
-/
namespace Verif.XSync.SharedConc
open Verif.Conc Verif.Go Verif.XSync.MapConc

variable {V : Type} [DecidableEq V] {m : Shape} {mm : Conf (Nat → G Bytes V) (SOp V) (SRes V) (CPt (BOp V) (BRes V) (Pt Bytes V))}
  {H : List (Ev (SOp V) (SRes V))}

theorem shared_sinks : (Client.weights (Res := BRes V) MapConc.weights (parts m) 1).Sinks (prog (V := V) m) :=
  Client.sinks MapConc.sinks (fun _ _ _ h => part_lt (next_inl h)) fun op => by cases op <;> simp [MapConc.weights, MapConc.prog, MapConc.wA]

/-- **C115.** Without new calls every execution of concurrent calls of a `SharedMap` ends, whatever the schedule. -/
theorem C115_shared_ends (h : (prog m).mach.Exec mm H) : Acc (prog m).Moves mm := shared_sinks.ends h

example := demoBlocked.imp fun _ h => C115_shared_ends h.1

/-- **C115.** Where nothing can move any more, every call of a `SharedMap` has returned. -/
theorem C115_shared_returns (h : (prog m).mach.Exec mm H) (hs : ∀ j c, (prog m).mach.next mm j c = none) {i : Nat} {op : SOp V}
    (hi : Ev.inv i op ∈ H) : ∃ r, Ev.ret i r ∈ H := by
  refine Classical.byContradiction fun hr => ?_
  obtain ⟨m', H', r, h1, h2⟩ := C89_no_deadlock h hi fun r hr' => hr ⟨r, hr'⟩
  have := List.append_right_eq_self.mp ((prog m).stuck_leads hs h1)
  simp [this] at h2

example := demo.elim fun _ h => C115_shared_returns (i := 5) h ((prog two).stuck_of_returned h (returned_spec rfl)) (by simp; rfl)

end Verif.XSync.SharedConc

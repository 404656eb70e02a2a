import Verif.XSync.SharedWordsProps
import Verif.XSync.SharedConcLive
import Verif.XSync.MapWordsEnds
import Verif.Conc.ClientEnds
import Verif.Conc.ClientPart
/-! # Calls of `xsync.SharedMap` concurrent with `Clear` return under every schedule (C119) -/
namespace Verif.XSync.SharedConc
open Verif.Conc Verif.Go
open Verif.XSync.MapConc (M ClearOp)
open Verif.XSync.MapWords (GW PtW progW progS)

variable {V : Type} [DecidableEq V] {m : Shape} {mm : CfW V} {H : List (Ev (SO V) (SRes V))}

/-- The number of calls of shards a call makes. -/
def partsW (m : Shape) : SO V → Nat
  | .inl op => parts m op
  | .inr _ => m.len

theorem partW_lt {o : SO V} {t : Nat} {so : Nat × BO V} (h : PartW m o t so) : t < partsW m o := by
  cases o with
  | inl op => obtain ⟨b, -, h⟩ := h; exact part_lt h
  | inr c => exact h.2

theorem sharedW_sinks : (Client.weights (Res := BRes V) MapWords.weightsW (partsW m) 1).Sinks ((clientW m).prog progS) :=
  Client.sinks MapWords.sinksW (fun _ _ _ h => partW_lt (nextW_inl h)) fun op => by
    cases op <;> simp [MapWords.weightsW, progS, progW, MapWords.wAW]

theorem nextSW_progS (h : (progSW m).mach.Exec mm H) (i c : Nat) : (progSW m).mach.next mm i c = ((clientW m).prog progS).mach.next mm i c := by
  simp only [Prog.mach]
  cases hp : mm.pc i with
  | «at» o s =>
    cases s with
    | between tr => rfl
    | inner tr o' s =>
      obtain ⟨x, o'⟩ := o'
      obtain ⟨mx, Hx, h1, h2, h3, -⟩ := (clientW m).part progW h x
      have := MapWords.step_progS h1 (h3 i o tr o' s hp) c
      rw [h2] at this
      simp only [progSW, Client.prog, this]
  | _ => rfl

/-- **C119.** Without new calls every execution of concurrent calls of a `SharedMap`, `Clear`s included, ends, whatever the schedule. -/
theorem C119_ends (h : (progSW m).mach.Exec mm H) : Acc (progSW m).Moves mm := by
  obtain ⟨n, hn⟩ := (progSW m).finite_calls h
  have ha : Acc ((clientW m).prog progS).Moves mm := sharedW_sinks.acc hn
  clear hn
  induction ha generalizing H with
  | intro mm _ ih =>
    refine ⟨_, fun m' ⟨l, i, c, hm⟩ => ?_⟩
    have hstep := hm
    rw [nextSW_progS h] at hm
    have hx : ∃ H', (progSW m).mach.Exec m' H' := by
      cases l with
      | none => exact ⟨H, .tau h (.run _ _ _ _ _ hstep)⟩
      | some e => exact ⟨_, .ev h (.run _ _ _ _ _ hstep)⟩
    obtain ⟨H', hx⟩ := hx
    exact ih m' ⟨l, i, c, hm⟩ hx

example := halfCleared_exec.imp fun _ h => C119_ends h

/-- **C119.** Where nothing can move any more, every call has returned or panicked. -/
theorem C119_returns (h : (progSW m).mach.Exec mm H) (hs : ∀ j c, (progSW m).mach.next mm j c = none) {i : Nat} {o : SO V} (hi : Ev.inv i o ∈ H) :
    ∃ r, Ev.ret i r ∈ H := by
  refine (clientW m).stuck progW ?_ h hs hi
  intro mx Hx hx hsx j o s hp
  have hv : mx.view j = some (o, .inl s) := by simp [Conf.view, hp, Proc.view]
  obtain ⟨r, hr⟩ := MapWords.C118_returns hx hsx ((progW.hist hx).1 j o |>.mpr ⟨_, hv⟩)
  obtain ⟨o', ho⟩ := (progW.hist hx).2 j r hr
  rw [hv] at ho
  simp at ho

example := halfTorn_exec.elim fun _ h => C119_returns (i := 3) h ((progSW two).stuck_of_returned h (returned_spec rfl)) (by simp [halfTorn]; rfl)

end Verif.XSync.SharedConc

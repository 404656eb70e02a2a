import Verif.XSync.SharedConcLive
/-!
# Calls on different shards of a `SharedMap` do not wait for each other (C129)
-/
namespace Verif.XSync.SharedConc
open Verif.Conc Verif.Go
open Verif.XSync.MapConc (M G Pt)

variable {V : Type} [DecidableEq V] {m : Shape} {mm : Cf V} {H : List (Ev (SOp V) (SRes V))}

/-! ## Specification -/

/-- The shards a call can have to do with: the shard of its key, the shards of the keys of `MStore`, all shards for `Range`. -/
def Uses (m : Shape) (x : Nat) : SOp V → Prop
  | .load k => m.index k = x
  | .has k => m.index k = x
  | .store k _ => m.index k = x
  | .loadOrStore k _ => m.index k = x
  | .computeIfAbsent k _ => m.index k = x
  | .computeIfPresent k _ => m.index k = x
  | .delete k => m.index k = x
  | .mstore data => ∃ e ∈ data, m.index e.1 = x
  | .range _ => True

/-- The call has been made and has not returned. -/
def Pending (H : List (Ev (SOp V) (SRes V))) (i : Nat) (op : SOp V) : Prop := Ev.inv i op ∈ H ∧ ∀ r, Ev.ret i r ∉ H

/-! ## Proofs -/

omit [DecidableEq V] in
theorem Part.uses {op : SOp V} {t x : Nat} {b : BOp V} (h : Part m op t (x, b)) : Uses m x op := by
  cases op with
  | mstore data =>
    obtain ⟨k, v, h1, h2⟩ := h
    simp only [Prod.mk.injEq] at h2
    exact ⟨(k, v), List.mem_of_getElem? h1, h2.1.symm⟩
  | range f => trivial
  | _ =>
    obtain ⟨k, b', h1, h2, _⟩ := h
    simp only [keyed, Option.some.injEq, Prod.mk.injEq] at h1 h2
    simp only [Uses]
    rw [h1.1]; exact h2.1.symm

theorem inner_uses (h : (prog m).mach.Exec mm H) {i : Nat} {op : SOp V} {tr : Tr V} {x : Nat} {o : BOp V} {s : Pt Bytes V}
    (hp : mm.pc i = .at op (.inner tr (x, o) s)) : Uses m x op := by
  obtain ⟨mE, E, hE, hgE, hc, hI⟩ := (client m).decompose MapConc.prog (g₀ := fun _ => MapConc.prog.init) h
  have := hc i
  rw [hp] at this
  obtain ⟨_, h2, -⟩ := this
  exact (next_inl h2).uses

/-- **C129.** A call that cannot go on waits for a call that has to do with the same shard, has not returned and can go on. -/
theorem C129_waits (h : (prog m).mach.Exec mm H) {i : Nat} {op : SOp V} (hi : Pending H i op) (hn : ∀ c, (prog m).mach.next mm i c = none) :
    ∃ x j op', j ≠ i ∧ Pending H j op' ∧ Uses m x op ∧ Uses m x op' ∧ ∃ c, (prog m).mach.next mm j c ≠ none := by
  have inner_move : ∀ {j : Nat} {op : SOp V} {tr : Tr V} {o : Nat × BOp V} {s : Pt Bytes V}, mm.pc j = .at op (.inner tr o s) →
      (s = .lock → (mm.g o.1).mu = none) → (prog m).mach.next mm j 0 ≠ none := by
    intro j op tr o s hpc hl
    obtain ⟨vx, gx, hI, h1, -⟩ := shards h o.1
    obtain ⟨⟨g', x⟩, hx⟩ := MapConc.enabled hI (h1 j op tr o.2 s hpc) hl
    simp only [Prog.mach, hpc, prog, Client.prog]
    rw [show MapConc.prog.step (mm.g o.1) (Nat.pair j tr.length) o.2 s 0 = some (g', x) from hx]
    cases x <;> simp
  rcases (prog m).pending h hi.1 hi.2 with ⟨s, hp⟩ | ⟨r, hp⟩
  · cases s with
    | between tr =>
      have := hn 0
      simp only [Prog.mach, hp, prog, Client.prog, client] at this
      cases hx : m.next op tr <;> simp [hx] at this
    | inner tr o s =>
      obtain ⟨x, o⟩ := o
      cases hmu : (mm.g x).mu with
      | none => exact absurd (hn 0) (inner_move hp fun _ => hmu)
      | some j =>
        have hs : s = .lock := Classical.byContradiction fun hs => inner_move hp (fun e => absurd e hs) (hn 0)
        subst hs
        obtain ⟨vx, gx, hI, h1, h2⟩ := shards h x
        obtain ⟨o', s', a1, a2⟩ := hI.muIn _ hmu
        obtain ⟨i', op', tr', rfl, b2⟩ := h2 _ _ _ a1
        have hnl : s' ≠ .lock := by
          rintro rfl
          have := (hI.mu _ _ _ a1).2 hmu
          simp [Pt.holds] at this
        refine ⟨x, i', op', ?_, ⟨?_, fun r hr => ?_⟩, inner_uses h hp, inner_uses h b2, 0, inner_move b2 fun e => absurd e hnl⟩
        · rintro rfl
          rw [hp] at b2
          simp only [Proc.at.injEq, CPt.inner.injEq] at b2
          exact hnl b2.2.2.2.symm
        · exact ((prog m).hist h).1 i' op' |>.2 ⟨.inl (.inner tr' (x, o') s'), by simp [Conf.view, b2, Proc.view]⟩
        · obtain ⟨op'', hv⟩ := ((prog m).hist h).2 i' r hr
          simp [Conf.view, b2, Proc.view] at hv
  · have := hn 0
    simp [Prog.mach, hp] at this

/-- **C129.** Suppose that some calls do not go on, at whatever point they are: the user functions of `ComputeIfAbsent`, `ComputeIfPresent` or `Range`
take very long. When the others have gone as far as they can, every call has returned that has no shard in common with any of these. -/
theorem C129_slow (h : (prog m).mach.Exec mm H) (S : Nat → Prop) (hs : ∀ j, ¬ S j → ∀ c, (prog m).mach.next mm j c = none) {i : Nat} {op : SOp V}
    (hi : Ev.inv i op ∈ H) (hS : ¬ S i) (ho : ∀ j op' x, S j → Pending H j op' → Uses m x op → ¬ Uses m x op') : ∃ r, Ev.ret i r ∈ H := by
  refine Classical.byContradiction fun hr => ?_
  obtain ⟨x, j, op', -, h1, h2, h3, c, h4⟩ := C129_waits h ⟨hi, fun r hr' => hr ⟨r, hr'⟩⟩ (hs i hS)
  exact ho j op' x (Classical.byContradiction fun hj => h4 (hs j hj c)) h1 h2 h3

example := demoBlocked.imp fun _ h => C129_waits h.1 (i := 2) (op := .mstore [([98], 6), ([97], 7)]) ⟨by simp, by simp⟩ (by intro c; simp [Prog.mach, h.2.2, prog, Client.prog, h.2.1, MapConc.prog, MapConc.step])

/-- A function for a key of one shard is running with the lock of the shard; a `Store` in the other shard returns. -/
theorem demoSlow : ∃ mm, (prog (V := Nat) two).mach.Exec mm [.inv 1 (.computeIfAbsent [97] fun _ _ => 5), .inv 2 (.store [98] 6), .ret 2 .unit] ∧
    (mm.g 0).mu = some (Nat.pair 1 0) ∧ ∀ j, ¬ j = 1 → ∀ c, (prog (V := Nat) two).mach.next mm j c = none :=
  Mach.exists_exec_state _ ([.inv 1 (.computeIfAbsent [97] fun _ _ => 5)] ++ runs 5 1 ++ [.inv 2 (.store [98] 6)] ++ runs 11 2) _ _ (by
    refine And.intro rfl (And.intro rfl ?_)
    intro j
    match j with
    | 0 => exact fun _ _ => rfl
    | 1 => exact fun h => absurd rfl h
    | 2 => exact fun _ _ => rfl
    | _ + 3 => exact fun _ _ => rfl)

example := demoSlow.imp fun _ h => C129_slow h.1 (· = 1) h.2.2 (i := 2) (op := .store [98] 6) (by simp) (by decide) (by
  rintro j op' x rfl ⟨h1, -⟩ h2 h3
  simp only [List.mem_cons, Ev.inv.injEq, true_and, List.not_mem_nil, or_false, reduceCtorEq] at h1
  simp at h1
  subst h1
  simp only [Uses] at h2 h3
  rw [← h2] at h3
  exact absurd h3 (by decide))

end Verif.XSync.SharedConc

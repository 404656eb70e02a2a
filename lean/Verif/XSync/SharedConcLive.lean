import Verif.XSync.SharedConcProps
import Verif.XSync.MapConcLive
/-! # Progress of concurrent calls on `xsync.SharedMap` (C89) -/
namespace Verif.XSync.SharedConc
open Verif.Conc Verif.Go
open Verif.XSync.MapConc (M G Pt)
open Verif.XSync.Shared (requested)

variable {V : Type} [DecidableEq V]
set_option linter.unusedSectionVars false
variable {opts : List Int} {m : Shape} {mm : Cf V} {H : List (Ev (SOp V) (SRes V))}

/-- Every shard is in a reachable state of a map. -/
theorem shards_from {g₀ : Nat → G Bytes V} (h0 : ∀ x, MapConc.Blank (g₀ x)) (h : ((prog m).from g₀).mach.Exec mm H) (x : Nat) : ∃ vx gx, MapConc.I (mm.g x) vx gx ∧
    (∀ i op tr o s, mm.pc i = .at op (.inner tr (x, o) s) → vx (Nat.pair i tr.length) = some (o, .inl s)) ∧
    ∀ j o s, vx j = some (o, .inl s) → ∃ i op tr, j = Nat.pair i tr.length ∧ mm.pc i = .at op (.inner tr (x, o) s) := by
  obtain ⟨mE, E, hE, hgE, hc, hI⟩ := (client m).decompose MapConc.prog h
  obtain ⟨gh, hg, rfl, hF⟩ := MapConc.prog.simulate_family MapConc.mapSpec MapConc.I (fun x => MapConc.inv_init (h0 x))
    (fun g v gh i op hg hI hv hst => MapConc.inv_invoke hg hI hv hst) (fun g v gh i op s c g' x hg hI hv hs => MapConc.inv_step hg hI hv hs)
    (fun g v gh i op r hg hI hv hnd => by
      rcases (hI.fin i op r hv).1 with h | ⟨h, n, h1, h2⟩ | h
      · exact Or.inl ⟨h, MapConc.inv_ret hg hI hv hnd rfl rfl rfl rfl rfl⟩
      · exact Or.inr ⟨n, h, h1.1, MapConc.inst_le hg h1, h2, MapConc.inv_ret hg hI hv hnd rfl rfl rfl rfl rfl⟩
      · exact absurd h hnd) hE
  obtain ⟨gx, hgx, hIx, -⟩ := hF.2.2 x
  refine ⟨mE.view.at x, gx, by rw [← hgE]; exact hIx, ?_, ?_⟩
  · intro i op tr o s hp
    have := hc i
    rw [hp] at this
    obtain ⟨-, -, hs⟩ := this
    apply View.at_mine
    simp [Conf.view, hs, subs, Proc.view]
  · intro j o s hj
    have hv := View.at_some hj
    have hci := hc (Nat.unpair j).1
    have hpc : mE.pc j = .at (x, o) s := by
      simp only [Conf.view] at hv
      cases hq : mE.pc j <;> simp [hq, Proc.view] at hv
      rw [hv.1, hv.2]
    have hnot : ∀ tr : Tr V, (∀ t, mE.pc (Nat.pair (Nat.unpair j).1 t) = subs tr .idle t) → False := by
      intro tr ht
      have := ht (Nat.unpair j).2
      rw [Nat.pair_unpair, hpc, subs] at this
      split at this
      · simp at this
      · split at this <;> simp at this
    cases hp : mm.pc (Nat.unpair j).1 with
    | idle =>
      rw [hp] at hci
      have : mE.pc (Nat.pair (Nat.unpair j).1 (Nat.unpair j).2) = .idle := hci (Nat.unpair j).2
      rw [Nat.pair_unpair, hpc] at this
      simp at this
    | «at» op q =>
      rw [hp] at hci
      cases q with
      | between tr => exact (hnot tr hci.2).elim
      | inner tr o' s' =>
        obtain ⟨-, -, hs⟩ := hci
        have ht : mE.pc (Nat.pair (Nat.unpair j).1 (Nat.unpair j).2) = _ := hs (Nat.unpair j).2
        rw [Nat.pair_unpair, hpc, subs] at ht
        split at ht
        · simp at ht
        · split at ht
          · rename_i he
            simp only [Proc.at.injEq] at ht
            obtain ⟨rfl, rfl⟩ := ht
            exact ⟨_, op, tr, by rw [← he, Nat.pair_unpair], hp⟩
          · simp at ht
    | ret op r => rw [hp] at hci; obtain ⟨tr, -, -, hs⟩ := hci; exact (hnot tr hs).elim
    | done op r => rw [hp] at hci; obtain ⟨tr, -, -, hs⟩ := hci; exact (hnot tr hs).elim

theorem shards (h : (prog m).mach.Exec mm H) (x : Nat) : ∃ vx gx, MapConc.I (mm.g x) vx gx ∧
    (∀ i op tr o s, mm.pc i = .at op (.inner tr (x, o) s) → vx (Nat.pair i tr.length) = some (o, .inl s)) ∧
    ∀ j o s, vx j = some (o, .inl s) → ∃ i op tr, j = Nat.pair i tr.length ∧ mm.pc i = .at op (.inner tr (x, o) s) :=
  shards_from (g₀ := fun _ => MapConc.prog.init) (fun _ => MapConc.blank_zero) h x

/-- A call of a shard that runs alone returns. -/
theorem inner_solo {i : Nat} {op : SOp V} {tr : Tr V} {o : Nat × BOp V} {s : Pt Bytes V} (h : (prog m).mach.Exec mm H)
    (hpc : mm.pc i = .at op (.inner tr o s)) (hm : (mm.g o.1).mu = none ∨ (mm.g o.1).mu = some (Nat.pair i tr.length)) :
    ∃ mm' r, (prog m).mach.Leads mm H mm' H ∧ mm'.pc i = .at op (.between (tr ++ [(o, r)])) ∧ (mm'.g o.1).mu = none ∧ ∀ j, j ≠ i → mm'.pc j = mm.pc j := by
  generalize hk : MapConc.rank (mm.g o.1) s = n
  induction n using MapConc.rankLt_wf.induction generalizing mm s with
  | _ n ih =>
  obtain ⟨vx, gx, hI, h1, -⟩ := shards h o.1
  have hv := h1 i op tr o.2 s hpc
  obtain ⟨⟨g', x⟩, hx⟩ := MapConc.enabled hI hv (fun hs => by
    rcases hm with hm | hm
    · exact hm
    · have := (hI.mu _ _ s hv).2 hm
      subst hs; simp [Pt.holds] at this)
  have hm' := MapConc.mu_step hx hm
  cases x with
  | inl s' =>
    have hst : (prog m).mach.next mm i 0 = some (none, ⟨upd mm.g o.1 g', upd mm.pc i (.at op (.inner tr o s'))⟩) := by
      simp only [Prog.mach, hpc, prog, Client.prog]
      rw [show MapConc.prog.step (mm.g o.1) (Nat.pair i tr.length) o.2 s 0 = some (g', .inl s') from hx]
    obtain ⟨m2, r, h1, h2, h3, h4⟩ := ih (MapConc.rank g' s') (by rw [← hk]; exact MapConc.rank_step hx)
      (s := s') (mm := ⟨upd mm.g o.1 g', upd mm.pc i (.at op (.inner tr o s'))⟩) (.tau h (.run _ _ _ _ _ hst)) (by simp) (by simpa using hm') (by simp)
    exact ⟨m2, r, .tau hst h1, h2, h3, fun j hj => by rw [h4 j hj]; simp [upd_ne _ _ hj]⟩
  | inr r =>
    have hst : (prog m).mach.next mm i 0 = some (none, ⟨upd mm.g o.1 g', upd mm.pc i (.at op (.between (tr ++ [(o, r)])))⟩) := by
      simp only [Prog.mach, hpc, prog, Client.prog]
      rw [show MapConc.prog.step (mm.g o.1) (Nat.pair i tr.length) o.2 s 0 = some (g', .inr r) from hx]
    refine ⟨_, r, .tau hst .refl, by simp, ?_, fun j hj => by simp [upd_ne _ _ hj]⟩
    rcases hm' with hm' | hm'
    · simpa using hm'
    · exfalso
      obtain ⟨vx, gx, hI, -, h2⟩ := shards (.tau h (.run _ _ _ _ _ hst)) o.1
      obtain ⟨o', s', a1, -⟩ := hI.muIn _ (by simpa using hm')
      obtain ⟨i', op', tr', b1, b2⟩ := h2 _ _ _ a1
      obtain ⟨rfl, -⟩ := Nat.pair_eq_pair.mp b1
      simp at b2

/-- A call of a shard can return, after the holder of the shard's lock. -/
theorem inner_returns {i : Nat} {op : SOp V} {tr : Tr V} {o : Nat × BOp V} {s : Pt Bytes V} (h : (prog m).mach.Exec mm H)
    (hpc : mm.pc i = .at op (.inner tr o s)) :
    ∃ mm' r, (prog m).mach.Leads mm H mm' H ∧ mm'.pc i = .at op (.between (tr ++ [(o, r)])) := by
  cases hmu : (mm.g o.1).mu with
  | none => obtain ⟨mm', r, h1, h2, -⟩ := inner_solo h hpc (Or.inl hmu); exact ⟨mm', r, h1, h2⟩
  | some j =>
    obtain ⟨vx, gx, hI, -, h2⟩ := shards h o.1
    obtain ⟨o', s', a1, -⟩ := hI.muIn _ hmu
    obtain ⟨i', op', tr', rfl, b2⟩ := h2 _ _ _ a1
    by_cases hii : i' = i
    · subst hii
      rw [hpc] at b2
      simp only [Proc.at.injEq, CPt.inner.injEq] at b2
      obtain ⟨-, rfl, -⟩ := b2
      obtain ⟨mm', r, h1, h2, -⟩ := inner_solo h hpc (Or.inr hmu)
      exact ⟨mm', r, h1, h2⟩
    · obtain ⟨m1, r1, c1, -, c3, c4⟩ := inner_solo h b2 (Or.inr hmu)
      obtain ⟨mm', r, h1, h2, -⟩ := inner_solo (o := o) (c1.exec h) (by rw [c4 i (Ne.symm hii)]; exact hpc) (Or.inl c3)
      exact ⟨mm', r, c1.trans h1, h2⟩

/-- The number of calls of shards a call makes. -/
def parts (m : Shape) : SOp V → Nat
  | .mstore data => data.length
  | .range _ => m.len
  | _ => 1

theorem part_lt {op : SOp V} {t : Nat} {o : Nat × BOp V} (h : Part m op t o) : t < parts m op := by
  cases op with
  | mstore data => obtain ⟨k, v, h, -⟩ := h; exact (List.getElem?_eq_some_iff.mp h).1
  | range f => exact h.2
  | _ => obtain ⟨_, _, _, _, rfl⟩ := h; exact Nat.one_pos

theorem between_returns {i : Nat} {op : SOp V} {tr : Tr V} (h : (prog m).mach.Exec mm H) (hpc : mm.pc i = .at op (.between tr)) :
    ∃ mm' r, (prog m).mach.Leads mm H mm' (H ++ [.ret i r]) := by
  generalize hk : parts m op - tr.length = n
  induction n using Nat.strong_induction_on generalizing mm tr with
  | _ n ih =>
  cases hn : m.next op tr with
  | inr r =>
    have hst : (prog m).mach.next mm i 0 = some (none, ⟨mm.g, upd mm.pc i (.ret op r)⟩) := by
      simp only [Prog.mach, hpc, prog, Client.prog, client, hn]
    have hst2 : (prog m).mach.next ⟨mm.g, upd mm.pc i (.ret op r)⟩ i 0 = some (some (.ret i r), ⟨mm.g, upd (upd mm.pc i (.ret op r)) i (.done op r)⟩) := by
      simp [Prog.mach]
    exact ⟨_, r, .tau hst (.ev hst2 .refl)⟩
  | inl o =>
    have hst : (prog m).mach.next mm i 0 = some (none, ⟨mm.g, upd mm.pc i (.at op (.inner tr o (MapConc.prog.begin o.2)))⟩) := by
      simp only [Prog.mach, hpc, prog, Client.prog, client, hn]
    obtain ⟨m1, r, h1, h2⟩ := inner_returns (.tau h (.run _ _ _ _ _ hst)) (i := i) (by simp; exact ⟨rfl, rfl, rfl, rfl⟩)
    obtain ⟨m2, r2, h3⟩ := ih (parts m op - (tr.length + 1)) (by have := part_lt (next_inl hn); omega) (h1.exec (.tau h (.run _ _ _ _ _ hst))) h2 (by simp)
    exact ⟨m2, r2, .tau hst (h1.trans h3)⟩

/-- **C89.** There is no deadlock: from every reachable state, every call that has not returned can still return, without new calls. -/
theorem C89_no_deadlock {i : Nat} {op : SOp V} (h : (prog m).mach.Exec mm H) (hi : Ev.inv i op ∈ H) (hr : ∀ r, Ev.ret i r ∉ H) :
    ∃ mm' H' r, (prog m).mach.Leads mm H mm' (H ++ H') ∧ Ev.ret i r ∈ H' := by
  rcases (prog m).pending h hi hr with ⟨s, hp⟩ | ⟨r, hp⟩
  · have : ∃ m1 tr, (prog m).mach.Leads mm H m1 H ∧ m1.pc i = .at op (.between tr) := by
      cases s with
      | between tr => exact ⟨mm, tr, .refl, hp⟩
      | inner tr o s => obtain ⟨m1, r, h1, h2⟩ := inner_returns h hp; exact ⟨m1, _, h1, h2⟩
    obtain ⟨m1, tr, h1, h2⟩ := this
    obtain ⟨m2, r, h3⟩ := between_returns (h1.exec h) h2
    exact ⟨m2, _, r, h1.trans h3, by simp⟩
  · have hst2 : (prog m).mach.next mm i 0 = some (some (.ret i r), ⟨mm.g, upd mm.pc i (.done op r)⟩) := by
      simp [Prog.mach, hp]
    exact ⟨_, _, r, .ev hst2 .refl, by simp⟩

/-- Two calls on different shards at once, and one that waits for the lock of a shard held by another. -/
theorem demoBlocked : ∃ mm, (prog (V := Nat) two).mach.Exec mm
      [.inv 1 (.computeIfAbsent [97] fun _ _ => 5), .inv 2 (.mstore [([98], 6), ([97], 7)])] ∧
    (mm.g 0).mu = some (Nat.pair 1 0) ∧ mm.pc 2 = .at (.mstore [([98], 6), ([97], 7)]) (.inner [((1, .store [98] 6), .unit)] (0, .store [97] 7) .lock) :=
  Mach.exists_exec_state _ ([.inv 1 (.computeIfAbsent [97] fun _ _ => 5)] ++ runs 5 1 ++ [.inv 2 (.mstore [([98], 6), ([97], 7)])] ++ runs 11 2) _ _
    (by exact And.intro rfl (And.intro rfl rfl))

example := demoBlocked.imp fun _ h => C89_no_deadlock (i := 2) (op := .mstore [([98], 6), ([97], 7)]) h.1 (by simp) (by simp)

end Verif.XSync.SharedConc

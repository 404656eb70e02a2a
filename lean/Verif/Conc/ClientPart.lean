import Verif.Conc.Client
import Verif.Conc.Marks
import Verif.Conc.Ends
/-!
# The objects used by calls that consist of calls of other objects
-/
namespace Verif.Conc

variable {G Op Res Op' Res' S' : Type}

/-- Every object used by a client is in a reachable state, with the calls that are inside it. -/
theorem Client.part (C : Client Op' Res' Op Res) (P : Prog G Op Res S') {m : Conf (Nat → G) Op' Res' (CPt Op Res S')} {H : List (Ev Op' Res')}
    (h : (C.prog P).mach.Exec m H) (x : Nat) : ∃ mx Hx, P.mach.Exec mx Hx ∧ mx.g = m.g x ∧
    (∀ i op tr o s, m.pc i = .at op (.inner tr (x, o) s) → mx.pc (Nat.pair i tr.length) = .at o s) ∧
    (∀ j o s, mx.pc j = .at o s → ∃ i op tr, j = Nat.pair i tr.length ∧ m.pc i = .at op (.inner tr (x, o) s)) ∧ ∀ j o r, mx.pc j ≠ .ret o r := by
  obtain ⟨mE, E, hE, hgE, hc, -⟩ := C.decompose P (g₀ := fun _ => P.init) h
  obtain ⟨Hx, hx, -⟩ := P.family_part hE x
  have hsub : ∀ j, (∃ o s, mE.pc j = .at o s) ∨ (∃ o r, mE.pc j = .ret o r) → ∃ op tr o s, m.pc (Nat.unpair j).1 = .at op (.inner tr o s) ∧
      (Nat.unpair j).2 = tr.length ∧ mE.pc j = .at o s := by
    intro j hj
    have hci := hc (Nat.unpair j).1
    have hnot : ∀ tr : List ((Nat × Op) × Res), (∀ t, mE.pc (Nat.pair (Nat.unpair j).1 t) = subs tr .idle t) → False := by
      intro tr ht
      have := ht (Nat.unpair j).2
      rw [Nat.pair_unpair, subs] at this
      split at this
      · rcases hj with ⟨_, _, hj⟩ | ⟨_, _, hj⟩ <;> simp [hj] at this
      · split at this <;> rcases hj with ⟨_, _, hj⟩ | ⟨_, _, hj⟩ <;> simp [hj] at this
    cases hp : m.pc (Nat.unpair j).1 with
    | idle =>
      rw [hp] at hci
      have : mE.pc (Nat.pair (Nat.unpair j).1 (Nat.unpair j).2) = .idle := hci (Nat.unpair j).2
      rw [Nat.pair_unpair] at this
      rcases hj with ⟨_, _, hj⟩ | ⟨_, _, hj⟩ <;> simp [hj] at this
    | «at» op q =>
      rw [hp] at hci
      cases q with
      | between tr => exact (hnot tr hci.2).elim
      | inner tr o s =>
        obtain ⟨-, -, hs⟩ := hci
        have ht : mE.pc (Nat.pair (Nat.unpair j).1 (Nat.unpair j).2) = _ := hs (Nat.unpair j).2
        rw [Nat.pair_unpair, subs] at ht
        split at ht
        · rcases hj with ⟨_, _, hj⟩ | ⟨_, _, hj⟩ <;> simp [hj] at ht
        · split at ht
          · exact ⟨op, tr, o, s, rfl, by assumption, ht⟩
          · rcases hj with ⟨_, _, hj⟩ | ⟨_, _, hj⟩ <;> simp [hj] at ht
    | ret op r => rw [hp] at hci; obtain ⟨tr, -, -, hs⟩ := hci; exact (hnot tr hs).elim
    | done op r => rw [hp] at hci; obtain ⟨tr, -, -, hs⟩ := hci; exact (hnot tr hs).elim
  refine ⟨_, Hx, hx, by simp only [hgE], ?_, ?_, ?_⟩
  · intro i op tr o s hp
    have := hc i
    rw [hp] at this
    obtain ⟨-, -, hs⟩ := this
    simp [hs, subs, Proc.at']
  · intro j o s hj
    dsimp only at hj
    cases hp : mE.pc j with
    | «at» o' s' =>
      obtain ⟨op, tr, o1, s1, h1, h2, h3⟩ := hsub j (.inl ⟨_, _, hp⟩)
      rw [hp] at h3
      simp only [Proc.at.injEq] at h3
      obtain ⟨rfl, rfl⟩ := h3
      simp only [hp, Proc.at'] at hj
      split at hj
      · rename_i he
        simp only [Proc.at.injEq] at hj
        obtain ⟨rfl, rfl⟩ := hj
        refine ⟨_, op, tr, by rw [← h2, Nat.pair_unpair], ?_⟩
        rw [h1, ← he]
      · simp at hj
    | _ =>
      rw [hp] at hj
      simp only [Proc.at'] at hj
      first
        | exact absurd hj (by simp)
        | (split at hj <;> simp at hj)
  · intro j o r hj
    dsimp only at hj
    cases hp : mE.pc j with
    | ret o' r' =>
      obtain ⟨op, tr, o1, s1, h1, h2, h3⟩ := hsub j (.inr ⟨_, _, hp⟩)
      rw [hp] at h3
      simp at h3
    | _ =>
      rw [hp] at hj
      simp only [Proc.at'] at hj
      first
        | exact absurd hj (by simp)
        | (split at hj <;> simp at hj)

/-- If every call of an object has returned where the object is stuck, so has every call of a client. -/
theorem Client.stuck (C : Client Op' Res' Op Res) (P : Prog G Op Res S')
    (hP : ∀ m H, P.mach.Exec m H → (∀ j c, P.mach.next m j c = none) → ∀ i o s, m.pc i ≠ .at o s)
    {m : Conf (Nat → G) Op' Res' (CPt Op Res S')} {H : List (Ev Op' Res')} (h : (C.prog P).mach.Exec m H)
    (hs : ∀ j c, (C.prog P).mach.next m j c = none) {i : Nat} {op : Op'} (hi : Ev.inv i op ∈ H) : ∃ r, Ev.ret i r ∈ H := by
  refine Classical.byContradiction fun hr => ?_
  rcases (C.prog P).pending h hi (fun r h => hr ⟨r, h⟩) with ⟨s, hp⟩ | ⟨r, hp⟩
  · have hn := hs i 0
    cases s with
    | between tr =>
      simp only [Prog.mach, hp, Client.prog] at hn
      cases hx : C.next op tr <;> simp [hx] at hn
    | inner tr o s =>
      obtain ⟨x, o⟩ := o
      obtain ⟨mx, Hx, h1, h2, h3, h4, h5⟩ := C.part P h x
      refine hP mx Hx h1 ?_ _ _ _ (h3 i op tr o s hp)
      intro j c
      simp only [Prog.mach]
      cases hj : mx.pc j with
      | «at» o' s' =>
        obtain ⟨i', op', tr', rfl, hp'⟩ := h4 j o' s' hj
        have hn' := hs i' c
        simp only [Prog.mach, hp', Client.prog] at hn'
        dsimp only
        rw [h2]
        cases hst : P.step (m.g x) (Nat.pair i' tr'.length) o' s' c with
        | none => rfl
        | some y => obtain ⟨g', y⟩ := y; cases y <;> simp [hst] at hn'
      | ret o' r' => exact absurd hj (h5 _ _ _)
      | _ => rfl
  · have := hs i 0
    simp [Prog.mach, hp] at this

end Verif.Conc

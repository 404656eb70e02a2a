import Verif.Conc.Net
/-!
# Progress without certain steps

A network in which some steps of components (such as the cancellation of a context) may never be taken: as long as not everything has ended
there is another step.
-/
namespace Verif.Conc.Net

variable {A L : Type} {N : Net A L} {lim : Nat} {specs : Nat → (Nat → List A) → (Nat → List A) → List L → Prop}

/-- The component can do something other than receiving, and the states before and after are related. -/
def ActiveIn (C : Comp A L) (keep : C.σ → C.σ → Prop) (s : C.σ) : Prop := ∃ l s', C.step s l s' ∧ l.isOut = true ∧ keep s s'

theorem keep_move {keep : (i : Nat) → (N.comp i).σ → (N.comp i).σ → Prop} (hrefl : ∀ i s, keep i s s) {m : NState N} {i : Nat} {l : Lbl A L} {s' : (N.comp i).σ}
    (hk : keep i (m.st i) s') : ∀ j, keep j (m.st j) ((m.move i l s').st j) := by
  intro j
  by_cases e : j = i
  · subst e; simp only [NState.move, Function.update_self]; exact hk
  · simp only [NState.move, Function.update_of_ne e]; exact hrefl _ _

theorem progress_in (hN : N.WF) (hS : ∀ m, NReach N m → ∀ i < N.n, Small lim (N.comp i) (m.hist i)) (hg : ∀ i < N.n, Good lim (N.comp i) (specs i))
    (keep : (i : Nat) → (N.comp i).σ → (N.comp i).σ → Prop) (hrefl : ∀ i s, keep i s s)
    (hin : ∀ i < N.n, ∀ s l s', (N.comp i).step s l s' → l.isOut = false → keep i s s')
    (hact : ∀ i < N.n, ∀ s h, CReach (N.comp i) s h → Small lim (N.comp i) h → ¬ (N.comp i).done s → Active (N.comp i) s → ActiveIn (N.comp i) (keep i) s)
    (hover : ∀ i < N.n, ∀ s h, CReach (N.comp i) s h → Small lim (N.comp i) h → (N.comp i).done s → 0 < (N.comp i).nin → Active (N.comp i) s → ActiveIn (N.comp i) (keep i) s)
    {m : NState N} (h : NReach N m) (hn : ¬ ∀ i < N.n, (N.comp i).done (m.st i)) : ∃ m', NStep m m' ∧ ∀ i, keep i (m.st i) (m'.st i) := by
  by_contra hno
  have hstuck : ∀ m', NStep m m' → ¬ ∀ i, keep i (m.st i) (m'.st i) := fun m' hs hk => hno ⟨m', hs, hk⟩
  have hinv := inv hN hS hg h
  have hsm := hS m h
  have hna : ∀ k i, N.n - i = k → i < N.n → ¬ ActiveIn (N.comp i) (keep i) (m.st i) := by
    intro k
    induction k using Nat.strongRecOn with
    | ind k ih =>
      rintro i hk hi ⟨l, s', hst, hl, hkp⟩
      have hleg := (hg i hi).safe _ _ _ _ (hinv.reach i hi) (hsm i hi) hst
      cases l with
      | recv p v => simp [Lbl.isOut] at hl
      | eof p => simp [Lbl.isOut] at hl
      | log e => exact hstuck _ (.log m i e s' hinv.ok hi hst) (keep_move hrefl hkp)
      | tau => exact hstuck _ (.tau m i s' hinv.ok hi hst) (keep_move hrefl hkp)
      | close q => exact hstuck _ (.close m i q s' hinv.ok hi hst (by rw [hinv.cl i hi q hleg.1]; exact hleg.2)) (keep_move (l := .close q) hrefl hkp)
      | send q v =>
        have hc : m.closed i q = false := by rw [hinv.cl i hi q hleg.1]; exact hleg.2
        obtain ⟨d1, d2, d3⟩ := hN.hdst i hi q hleg.1
        have hlt : i < (N.dst i q).1 := by
          have := (hN.hsrc _ d1 _ d2).1
          rw [d3] at this; exact this
        have heof : (m.hist (N.dst i q).1).eof (N.dst i q).2 = false := by
          cases e : (m.hist (N.dst i q).1).eof (N.dst i q).2 with
          | false => rfl
          | true => have := (hinv.eofs i hi q hleg.1 e).1; rw [hc] at this; simp at this
        rcases (hg _ d1).accept _ _ (hinv.reach _ d1) (hsm _ d1) _ d2 heof with hrd | hac
        · cases hb : m.buf i q with
          | nil =>
            obtain ⟨s'', hs''⟩ := hrd.1 v
            refine hstuck _ (.meet m i q v s' s'' hinv.ok hi hst hc hb (by omega) d1 hs'') fun j => ?_
            by_cases e : j = (N.dst i q).1
            · subst e
              simp only [NState.move, Function.update_self]
              exact hin _ d1 _ _ _ hs'' rfl
            · have := keep_move (m := m) (l := .send q v) hrefl hkp j
              simp only [NState.move, Function.update_of_ne e] at this ⊢
              exact this
          | cons w ws =>
            obtain ⟨s'', hs''⟩ := hrd.1 w
            exact hstuck _ (.recv m _ _ w ws s'' hinv.ok d1 hs'' (by rw [d3]; exact hb)) (keep_move (l := .recv (N.dst i q).2 w) hrefl (hin _ d1 _ _ _ hs'' rfl))
        · refine ih (N.n - (N.dst i q).1) (by omega) _ rfl d1 ?_
          by_cases hd : (N.comp (N.dst i q).1).done (m.st (N.dst i q).1)
          · exact hover _ d1 _ _ (hinv.reach _ d1) (hsm _ d1) hd (by omega) hac
          · exact hact _ d1 _ _ (hinv.reach _ d1) (hsm _ d1) hd hac
  refine hn fun i => ?_
  induction i using Nat.strongRecOn with
  | ind i ih =>
    intro hi
    by_contra hnd
    rcases (hg i hi).live _ _ (hinv.reach i hi) (hsm i hi) hnd with hac | ⟨p, hp, heof, hrd⟩
    · exact hna _ i rfl hi (hact i hi _ _ (hinv.reach i hi) (hsm i hi) hnd hac)
    · obtain ⟨s1, s2, s3⟩ := hN.hsrc i hi p hp
      have hk : (N.src i p).1 < N.n := by omega
      have hdone := ih _ s1 hk
      have hcl := ((hg _ hk).fin _ _ (hinv.reach _ hk) (hsm _ hk) hdone).2.1 _ s2
      rw [← hinv.cl _ hk _ s2] at hcl
      cases hb : m.buf (N.src i p).1 (N.src i p).2 with
      | cons w ws =>
        obtain ⟨s'', hs''⟩ := hrd.1 w
        exact hstuck _ (.recv m i p w ws s'' hinv.ok hi hs'' hb) (keep_move (l := .recv p w) hrefl (hin i hi _ _ _ hs'' rfl))
      | nil =>
        obtain ⟨s'', hs''⟩ := hrd.2
        exact hstuck _ (.eof m i p s'' hinv.ok hi hs'' hb hcl) (keep_move (l := .eof p) hrefl (hin i hi _ _ _ hs'' rfl))

end Verif.Conc.Net

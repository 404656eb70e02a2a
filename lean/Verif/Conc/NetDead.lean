import Verif.Conc.Net
/-!
# Networks in which components can die

`dead h` says that a component with the history `h` has died: it has ended, without having received the end of its input or without having closed
its outputs. If nobody in a network can move any more, everybody who has not finished is connected to a component that has died, by channels that
have never been closed.
-/
namespace Verif.Conc.Net

variable {A L : Type}

/-- Correctness of a component that can die (compare `Good`). -/
structure Mortal (lim : Nat) (C : Comp A L) (dead : Hist A L → Prop) : Prop where
  safe : Safe lim C
  sinks : Sinking lim C
  fin : ∀ s h, CReach C s h → Small lim C h → C.done s → (∀ q < C.nout, h.closed q = true) ∨ dead h
  live : ∀ s h, CReach C s h → Small lim C h → ¬ C.done s → Active C s ∨ ∃ p < C.nin, h.eof p = false ∧ Ready C s p
  accept : ∀ s h, CReach C s h → Small lim C h → ∀ p < C.nin, h.eof p = false → Ready C s p ∨ Active C s ∨ dead h

theorem Good.mortal {lim : Nat} {C : Comp A L} {spec : (Nat → List A) → (Nat → List A) → List L → Prop} {dead : Hist A L → Prop} (h : Good lim C spec) :
    Mortal lim C dead :=
  ⟨h.safe, h.weight, fun s hh hr hs hd => .inl (h.fin s hh hr hs hd).2.1, h.live,
    fun s hh hr hs p hp he => (h.accept s hh hr hs p hp he).imp_right .inl⟩

variable {N : Net A L} {lim : Nat} {dead : Nat → Hist A L → Prop}

/-- `j` sends to `i` on a channel that has not been closed. -/
def Open (m : NState N) (j i : Nat) : Prop := j < N.n ∧ ∃ q < (N.comp j).nout, (N.dst j q).1 = i ∧ m.closed j q = false

theorem blocked_by_dead (hN : N.WF) (hg : ∀ i < N.n, Mortal lim (N.comp i) (dead i)) {m : NState N} (h : NInv m)
    (hsm : ∀ i < N.n, Small lim (N.comp i) (m.hist i)) (hstuck : ∀ m', ¬ NStep m m') :
    ∀ k i, N.n - i = k → i < N.n → Active (N.comp i) (m.st i) → ∃ d < N.n, Relation.ReflTransGen (Open m) i d ∧ dead d (m.hist d) := by
  intro k
  induction k using Nat.strongRecOn with
  | ind k ih =>
    rintro i hk hi ⟨l, s', hst, hl⟩
    have hleg := (hg i hi).safe _ _ _ _ (h.reach i hi) (hsm i hi) hst
    cases l with
    | recv p v => simp [Lbl.isOut] at hl
    | eof p => simp [Lbl.isOut] at hl
    | log e => exact absurd (.log m i e s' h.ok hi hst) (hstuck _)
    | tau => exact absurd (.tau m i s' h.ok hi hst) (hstuck _)
    | close q => exact absurd (.close m i q s' h.ok hi hst (by rw [h.cl i hi q hleg.1]; exact hleg.2)) (hstuck _)
    | send q v =>
      have hc : m.closed i q = false := by rw [h.cl i hi q hleg.1]; exact hleg.2
      obtain ⟨d1, d2, d3⟩ := hN.hdst i hi q hleg.1
      have hlt : i < (N.dst i q).1 := by
        have := (hN.hsrc _ d1 _ d2).1
        rw [d3] at this; exact this
      have heof : (m.hist (N.dst i q).1).eof (N.dst i q).2 = false := by
        cases e : (m.hist (N.dst i q).1).eof (N.dst i q).2 with
        | false => rfl
        | true => have := (h.eofs i hi q hleg.1 e).1; rw [hc] at this; simp at this
      have hop : Open m i (N.dst i q).1 := ⟨hi, q, hleg.1, rfl, hc⟩
      rcases (hg _ d1).accept _ _ (h.reach _ d1) (hsm _ d1) _ d2 heof with hrd | hac | hde
      · cases hb : m.buf i q with
        | nil =>
          obtain ⟨s'', hs''⟩ := hrd.1 v
          exact absurd (.meet m i q v s' s'' h.ok hi hst hc hb (by omega) d1 hs'') (hstuck _)
        | cons w ws =>
          obtain ⟨s'', hs''⟩ := hrd.1 w
          exact absurd (.recv m _ _ w ws s'' h.ok d1 hs'' (by rw [d3]; exact hb)) (hstuck _)
      · obtain ⟨d, hd, hpath, hde⟩ := ih (N.n - (N.dst i q).1) (by omega) _ rfl d1 hac
        exact ⟨d, hd, .head hop hpath, hde⟩
      · exact ⟨_, d1, .single hop, hde⟩

/-- Who has not finished when nobody can move waits, directly or through others, for somebody who has died or who cannot get rid of a value because
of somebody who has died. -/
theorem stuck_by_dead (hN : N.WF) (hS : ∀ m, NReach N m → ∀ i < N.n, Small lim (N.comp i) (m.hist i)) (hg : ∀ i < N.n, Mortal lim (N.comp i) (dead i))
    {m : NState N} (hr : NReach N m) (hstuck : ∀ m', ¬ NStep m m') : ∀ i < N.n, ¬ (N.comp i).done (m.st i) →
    ∃ j < N.n, ∃ d < N.n, Relation.ReflTransGen (Open m) j i ∧ Relation.ReflTransGen (Open m) j d ∧ dead d (m.hist d) := by
  have h := inv_safe hN hS (fun i hi => (hg i hi).safe) hr
  have hsm := hS m hr
  intro i
  induction i using Nat.strongRecOn with
  | ind i ih =>
    intro hi hnd
    rcases (hg i hi).live _ _ (h.reach i hi) (hsm i hi) hnd with hac | ⟨p, hp, heof, hrd⟩
    · obtain ⟨d, hd, hpath, hde⟩ := blocked_by_dead hN hg h hsm hstuck _ i rfl hi hac
      exact ⟨i, hi, d, hd, .refl, hpath, hde⟩
    · obtain ⟨s1, s2, s3⟩ := hN.hsrc i hi p hp
      have hk : (N.src i p).1 < N.n := by omega
      have hcl : m.closed (N.src i p).1 (N.src i p).2 = false := by
        cases hc : m.closed (N.src i p).1 (N.src i p).2 with
        | false => rfl
        | true =>
          cases hb : m.buf (N.src i p).1 (N.src i p).2 with
          | cons w ws =>
            obtain ⟨s'', hs''⟩ := hrd.1 w
            exact absurd (.recv m i p w ws s'' h.ok hi hs'' hb) (hstuck _)
          | nil =>
            obtain ⟨s'', hs''⟩ := hrd.2
            exact absurd (.eof m i p s'' h.ok hi hs'' hb hc) (hstuck _)
      have hop : Open m (N.src i p).1 i := ⟨hk, (N.src i p).2, s2, by rw [s3], hcl⟩
      by_cases hd : (N.comp (N.src i p).1).done (m.st (N.src i p).1)
      · rcases (hg _ hk).fin _ _ (h.reach _ hk) (hsm _ hk) hd with hcl' | hde
        · have := hcl' _ s2
          rw [← h.cl _ hk _ s2, hcl] at this; simp at this
        · exact ⟨_, hk, _, hk, .single hop, .refl, hde⟩
      · obtain ⟨j, hj, d, hd', p1, p2, hde⟩ := ih _ s1 hk hd
        exact ⟨j, hj, d, hd', .tail p1 hop, p2, hde⟩

end Verif.Conc.Net

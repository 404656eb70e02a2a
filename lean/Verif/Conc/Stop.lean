import Verif.Conc.Net
/-!
# Networks some of whose consumers have stopped

A set `U` of components without outputs does not move any more, in any state of the network. If what is still to be sent to them fits in the
buffers of their channels, all the other components get to their ends.
-/
namespace Verif.Conc.Net

variable {A L : Type} {N : Net A L} {lim : Nat} {b : Nat → Nat → Nat} {specs : Nat → (Nat → List A) → (Nat → List A) → List L → Prop}

/-- The component `u` takes part in the step from `m` to `m'`. -/
def Moved (m m' : NState N) (u : Nat) : Prop := ¬ (m'.st u = m.st u ∧ m'.hist u = m.hist u)

/-- Only components of `U` can move. -/
def OnlyMoves (U : Nat → Prop) (m : NState N) : Prop := ∀ m', NStep m m' → ∃ u, U u ∧ Moved m m' u

/-- The channels to components of `U` have room for all that can still be sent on them, of at most `b i q` values. -/
def RoomFor (U : Nat → Prop) (b : Nat → Nat → Nat) (m : NState N) : Prop :=
  ∀ i < N.n, ∀ q < (N.comp i).nout, U (N.dst i q).1 → ∀ v s', (N.comp i).step (m.st i) (.send q v) s' →
    b i q ≤ ((m.hist (N.dst i q).1).ins (N.dst i q).2).length + (N.comp i).cap (m.st i) q

theorem not_moved (m : NState N) {i u : Nat} (h : u ≠ i) (l : Lbl A L) (s' : (N.comp i).σ) :
    (m.move i l s').st u = m.st u ∧ (m.move i l s').hist u = m.hist u :=
  ⟨by simp only [NState.move, Function.update_of_ne h], by simp only [NState.move, upd_of_ne _ _ h]⟩

variable {U : Nat → Prop}

theorem stopped_inactive (hN : N.WF) (hB : N.Bounded lim b) (hg : ∀ i < N.n, Good lim (N.comp i) (specs i)) {m : NState N} (h : NInv m)
    (hstop : OnlyMoves U m) (hroom : RoomFor U b m) :
    ∀ k i, N.n - i = k → i < N.n → ¬ U i → ¬ Active (N.comp i) (m.st i) := by
  have hsm := small hN hB h
  have hbd := bounds hN hB h
  have hno : ∀ {i : Nat} {l : Lbl A L} {s' : (N.comp i).σ} {m' : NState N}, ¬ U i → NStep m m' → m'.st = (m.move i l s').st →
      m'.hist = (m.move i l s').hist → False := by
    intro i l s' m' hi hs e1 e2
    obtain ⟨u, hu, hm⟩ := hstop _ hs
    have hne : u ≠ i := fun e => hi (e ▸ hu)
    exact hm (by rw [e1, e2]; exact not_moved m hne l s')
  intro k
  induction k using Nat.strongRecOn with
  | ind k ih =>
    rintro i hk hi hUi ⟨l, s', hst, hl⟩
    have hleg := (hg i hi).safe _ _ _ _ (h.reach i hi) (hsm i hi) hst
    cases l with
    | recv p v => simp [Lbl.isOut] at hl
    | eof p => simp [Lbl.isOut] at hl
    | log e => exact hno hUi (.log m i e s' h.ok hi hst) rfl rfl
    | tau => exact hno hUi (.tau m i s' h.ok hi hst) rfl rfl
    | close q => exact hno (l := .close q) (s' := s') hUi (.close m i q s' h.ok hi hst (by rw [h.cl i hi q hleg.1]; exact hleg.2)) rfl rfl
    | send q v =>
      have hc : m.closed i q = false := by rw [h.cl i hi q hleg.1]; exact hleg.2
      obtain ⟨d1, d2, d3⟩ := hN.hdst i hi q hleg.1
      have hlt : i < (N.dst i q).1 := by
        have := (hN.hsrc _ d1 _ d2).1
        rw [d3] at this; exact this
      by_cases hUd : U (N.dst i q).1
      · -- the value fits in the buffer
        have h1 := hroom i hi q hleg.1 hUd v s' hst
        have h2 := hB.out i hi _ _ (.step (h.reach i hi) hst) (hsm i hi) (fun p hp => by
          obtain ⟨s1, s2, s3⟩ := hN.hsrc i hi p hp
          have hk' : (N.src i p).1 < N.n := by omega
          have e1 := hbd _ hk' _ s2
          have e2 := h.chan _ hk' _ s2
          rw [s3] at e2
          rw [e2, List.length_append] at e1
          exact Nat.le_trans (Nat.le_add_right _ _) e1) q hleg.1
        have h3 := h.chan i hi q hleg.1
        simp only [Hist.add, upd_self, List.length_append, List.length_singleton] at h2
        rw [h3, List.length_append] at h2
        exact hno (l := .send q v) (s' := s') hUi (.send m i q v s' h.ok hi hst hc (by omega)) rfl rfl
      · have heof : (m.hist (N.dst i q).1).eof (N.dst i q).2 = false := by
          cases e : (m.hist (N.dst i q).1).eof (N.dst i q).2 with
          | false => rfl
          | true => have := (h.eofs i hi q hleg.1 e).1; rw [hc] at this; simp at this
        rcases (hg _ d1).accept _ _ (h.reach _ d1) (hsm _ d1) _ d2 heof with hrd | hac
        · cases hb : m.buf i q with
          | nil =>
            obtain ⟨s'', hs''⟩ := hrd.1 v
            obtain ⟨u, hu, hm⟩ := hstop _ (.meet m i q v s' s'' h.ok hi hst hc hb (by omega) d1 hs'')
            have n1 : u ≠ i := fun e => hUi (e ▸ hu)
            have n2 : u ≠ (N.dst i q).1 := fun e => hUd (e ▸ hu)
            have e1 := not_moved (m.move i (.send q v) s') n2 (.recv (N.dst i q).2 v) s''
            have e2 := not_moved m n1 (.send q v) s'
            exact hm ⟨e1.1.trans e2.1, e1.2.trans e2.2⟩
          | cons w ws =>
            obtain ⟨s'', hs''⟩ := hrd.1 w
            exact hno (l := .recv (N.dst i q).2 w) (s' := s'') hUd (.recv m _ _ w ws s'' h.ok d1 hs'' (by rw [d3]; exact hb)) rfl rfl
        · exact ih (N.n - (N.dst i q).1) (by omega) _ rfl d1 hUd hac

/-- If the consumers `U` have stopped and nobody else can move, everybody else has finished. -/
theorem stopped_done (hN : N.WF) (hB : N.Bounded lim b) (hg : ∀ i < N.n, Good lim (N.comp i) (specs i)) (hU : ∀ u < N.n, U u → (N.comp u).nout = 0)
    {m : NState N} (h : NReach N m) (hstop : OnlyMoves U m) (hroom : RoomFor U b m) : ∀ i < N.n, ¬ U i → (N.comp i).done (m.st i) := by
  have hS := small_of_bounded hN hB hg
  have hinv := inv hN hS hg h
  have hna := fun i => stopped_inactive hN hB hg hinv hstop hroom (N.n - i) i rfl
  have hno : ∀ {i : Nat} {l : Lbl A L} {s' : (N.comp i).σ} {m' : NState N}, ¬ U i → NStep m m' → m'.st = (m.move i l s').st →
      m'.hist = (m.move i l s').hist → False := by
    intro i l s' m' hi hs e1 e2
    obtain ⟨u, hu, hm⟩ := hstop _ hs
    have hne : u ≠ i := fun e => hi (e ▸ hu)
    exact hm (by rw [e1, e2]; exact not_moved m hne l s')
  intro i
  induction i using Nat.strongRecOn with
  | ind i ih =>
    intro hi hUi
    by_contra hnd
    rcases (hg i hi).live _ _ (hinv.reach i hi) (hS m h i hi) hnd with hac | ⟨p, hp, heof, hrd⟩
    · exact hna i hi hUi hac
    · obtain ⟨s1, s2, s3⟩ := hN.hsrc i hi p hp
      have hk : (N.src i p).1 < N.n := by omega
      have hdone := ih _ s1 hk (fun hu => by rw [hU _ hk hu] at s2; omega)
      have hcl := ((hg _ hk).fin _ _ (hinv.reach _ hk) (hS m h _ hk) hdone).2.1 _ s2
      rw [← hinv.cl _ hk _ s2] at hcl
      cases hb : m.buf (N.src i p).1 (N.src i p).2 with
      | cons w ws =>
        obtain ⟨s'', hs''⟩ := hrd.1 w
        exact hno (l := .recv p w) (s' := s'') hUi (.recv m i p w ws s'' hinv.ok hi hs'' hb) rfl rfl
      | nil =>
        obtain ⟨s'', hs''⟩ := hrd.2
        exact hno (l := .eof p) (s' := s'') hUi (.eof m i p s'' hinv.ok hi hs'' hb hcl) rfl rfl

/-- Everybody who has finished has met their specification, on all that their predecessors have sent. -/
theorem stopped_final (hN : N.WF) (hB : N.Bounded lim b) (hg : ∀ i < N.n, Good lim (N.comp i) (specs i)) {m : NState N} (h : NReach N m)
    {i : Nat} (hi : i < N.n) (hd : (N.comp i).done (m.st i)) :
    specs i (m.hist i).ins (m.hist i).outs (m.hist i).log ∧
    ∀ p < (N.comp i).nin, (m.hist i).ins p = (m.hist (N.src i p).1).outs (N.src i p).2 := by
  have hS := small_of_bounded hN hB hg
  have hinv := inv hN hS hg h
  obtain ⟨f1, -, f3⟩ := (hg i hi).fin _ _ (hinv.reach i hi) (hS m h i hi) hd
  refine ⟨f3, fun p hp => ?_⟩
  obtain ⟨s1, s2, s3⟩ := hN.hsrc i hi p hp
  have hk : (N.src i p).1 < N.n := by omega
  have hch := hinv.chan _ hk _ s2
  have heo := hinv.eofs _ hk _ s2
  rw [s3] at hch heo
  rw [(heo (f1 p hp)).2] at hch
  simpa using hch.symm

/-- The others can always go on until they cannot move any more. -/
theorem stops (hN : N.WF) (hS : ∀ m, NReach N m → ∀ i < N.n, Small lim (N.comp i) (m.hist i)) (hg : ∀ i < N.n, Good lim (N.comp i) (specs i))
    (U : Nat → Prop) {m : NState N} (h : NReach N m) :
    ∃ m', Relation.ReflTransGen (fun x y => NStep x y ∧ ∀ u, U u → ¬ Moved x y u) m m' ∧ NReach N m' ∧ OnlyMoves U m' := by
  obtain ⟨W, c, hW⟩ := weights fun i hi => (hg i hi).weight
  have key : ∀ a : Nat → Nat, ∀ m, NReach N m → load W c m = a →
      ∃ m', Relation.ReflTransGen (fun x y => NStep x y ∧ ∀ u, U u → ¬ Moved x y u) m m' ∧ NReach N m' ∧ OnlyMoves U m' := by
    intro a
    induction a using (lexLt_wf N.n).induction with
    | _ a ih =>
      intro m hm ha
      by_cases hst : ∃ m', NStep m m' ∧ ∀ u, U u → ¬ Moved m m' u
      · obtain ⟨m', hs, hu⟩ := hst
        obtain ⟨m'', h1, h2⟩ := ih _ (by rw [← ha]; exact step_decreases hN (fun i hi => (hg i hi).safe) W c hW (inv hN hS hg hm) (hS _ hm) hs) m' (.step hm hs) rfl
        exact ⟨m'', .head ⟨hs, hu⟩ h1, h2⟩
      · refine ⟨m, .refl, hm, fun m' hs => ?_⟩
        by_contra hc
        exact hst ⟨m', hs, fun u hu hmv => hc ⟨u, hu, hmv⟩⟩
  exact key _ m h rfl

/-- Nothing is sent on a closed channel. -/
theorem closed_step {m m' : NState N} (hs : NStep m m') {i q : Nat} (hc : m.closed i q = true) :
    m'.closed i q = true ∧ (m'.hist i).outs q = (m.hist i).outs q := by
  have move : ∀ (m₀ : NState N) (j : Nat) (l : Lbl A L) (s' : (N.comp j).σ), (∀ v, j = i → l ≠ .send q v) →
      ((m₀.move j l s').hist i).outs q = (m₀.hist i).outs q := by
    intro m₀ j l s' hne
    by_cases e : i = j
    · subst e
      simp only [NState.move, upd_self]
      cases l with
      | send q' v =>
        by_cases e : q = q'
        · subst e; exact absurd rfl (hne v rfl)
        · simp [Hist.add, upd_of_ne _ _ e]
      | _ => rfl
    · simp only [NState.move, upd_of_ne _ _ e]
  have hsend : ∀ {j q' : Nat}, m.closed j q' = false → ∀ v v', j = i → (.send q' v : Lbl A L) ≠ .send q v' := by
    rintro j q' hf v v' rfl e
    cases e
    rw [hf] at hc; simp at hc
  cases hs with
  | log j e s' => exact ⟨hc, move m j _ _ (by simp)⟩
  | tau j s' => exact ⟨hc, move m j _ _ (by simp)⟩
  | send j q' v s' _ _ _ hf => exact ⟨hc, move m j _ s' (hsend hf v)⟩
  | meet j q' v s' s'' _ _ _ hf =>
    exact ⟨hc, (move (m.move j (.send q' v) s') _ _ s'' (by simp)).trans (move m j _ s' (hsend hf v))⟩
  | sendPanic => exact ⟨hc, rfl⟩
  | close j q' s' =>
    refine ⟨?_, move m j _ s' (by simp)⟩
    simp only [upd2]; split <;> simp [hc]
  | closePanic => exact ⟨hc, rfl⟩
  | recv j p v vs s' => exact ⟨hc, move m j _ s' (by simp)⟩
  | eof j p s' => exact ⟨hc, move m j _ s' (by simp)⟩

theorem closed_steps {m m' : NState N} (hs : Relation.ReflTransGen NStep m m') {i q : Nat} (hc : m.closed i q = true) :
    m'.closed i q = true ∧ (m'.hist i).outs q = (m.hist i).outs q := by
  induction hs with
  | refl => exact ⟨hc, rfl⟩
  | tail _ h ih => exact ⟨(closed_step h ih.1).1, (closed_step h ih.1).2.trans ih.2⟩

end Verif.Conc.Net

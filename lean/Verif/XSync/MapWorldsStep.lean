import Verif.XSync.MapWorldsRel
/-! # `Clear` concurrent with other operations: every step keeps the relation -/
namespace Verif.XSync.MapWords
open Verif.Conc Verif.Go Verif.XSync.MapConc
open Verif.XSync.MapClear (Typ)

variable {K V : Type} [DecidableEq K] [DecidableEq V]

/-- The program and its history, and worlds. -/
def Rel (M : GW K V) (v : VwW K V) (H : HW K V) : Prop :=
  ∃ n W Hp cl, Phys M v n W ∧ Hst v H n W Hp cl ∧ Torn M v H n Hp

section
variable {M M' : GW K V} {v : VwW K V} {H : HW K V} {n w i c : Nat} {W : Nat → World K V} {Hp : Nat → HW K V} {cl : Nat → Nat} {op : Op K V}

omit [DecidableEq K] [DecidableEq V] in
theorem upd_upd {α : Type} (f : Nat → α) (i : Nat) (x y : α) : upd (upd f i x) i y = upd f i y := by
  funext j
  by_cases e : j = i
  · subst e; simp
  · simp [upd_ne _ _ e]

omit [DecidableEq K] [DecidableEq V] in
theorem up_ne {z : Pt K V ⊕ Res K V} {t : PtW K V} (ht : ∀ s, t ≠ .pt s) : up z ≠ .inl t := by
  cases z <;> simp [up]
  exact fun h => ht _ h.symm

omit [DecidableEq K] [DecidableEq V] in
theorem up_panic {z : Pt K V ⊕ Res K V} (h : up z = .inr .panic) : z = .inr .panic := by
  cases z <;> simp [up] at h ⊢
  exact h

omit [DecidableEq V] in
theorem Phys.clOp (h : Phys M v n W) {o : Op K V ⊕ ClearOp} {p : ClPt} (hv : v i = some (o, .inl (.cl p))) : ∃ q, o = .inr q := by
  cases o with
  | inr q => exact ⟨q, rfl⟩
  | inl op => have := h.calls i; rw [hv] at this; exact this.elim

omit [DecidableEq V] in
theorem Phys.atData (h : Phys M v n W) {o : Op K V ⊕ ClearOp} (hv : v i = some (o, .inl (.cl .data))) : M.typ = .nil := by
  obtain ⟨q, rfl⟩ := h.clOp hv
  have hm := (h.cmu i q _ hv).1 (by simp)
  have := h.cur
  rw [hm] at this
  simp only [Option.bind_some, hv] at this
  exact this.1

omit [DecidableEq V] in
theorem Phys.notRead (h : Phys M v n W) (ht : M.typ ≠ .readOnly) : (W n).g.read = [] ∧ (W n).g.amended = false := by
  have := h.cur
  unfold Cur NewG at this
  split at this <;> simp_all

omit [DecidableEq V] in
theorem Phys.torn (h : Phys M v n W) (ht : M.typ = .readOnly) (hd : M.data = none) : ∃ j q, v j = some (.inr q, .inl (.cl .typ)) := by
  have hc := h.cur
  cases hm : M.g.mu with
  | none => rw [hm] at hc; simp [Cur, ht, hd] at hc
  | some j =>
    rw [hm] at hc
    obtain ⟨o, s, hv⟩ := h.held j hm
    simp only [Option.bind_some, hv] at hc
    unfold Cur at hc
    split at hc <;> simp_all
    obtain ⟨q, rfl⟩ := h.clOp hv
    exact ⟨j, q, hv⟩

omit [DecidableEq V] in
theorem Phys.read (h : Phys M v n W) {r : GMap K Nat × Bool} (hd : M.data = some r) :
    r = ((W n).g.read, (W n).g.amended) ∨ (0 < n ∧ r = ((W (n - 1)).g.read, (W (n - 1)).g.amended) ∧ ∃ j o, v j = some (o, .inl (.cl .data))) ∨ r = ([], true) := by
  have hc := h.cur
  cases hm : M.g.mu with
  | none => rw [hm] at hc; simp [Cur, hd] at hc; exact Or.inl hc.1.2
  | some j =>
    rw [hm] at hc
    obtain ⟨o, s, hv⟩ := h.held j hm
    simp only [Option.bind_some, hv] at hc
    unfold Cur at hc
    split at hc
    all_goals simp_all
    exact Or.inr (Or.inl ⟨j, ⟨_, hv⟩⟩)

/-- A call enters a world with the result of its first load of `m.read`. -/
theorem rel_enter (h1 : Phys M v n W) (h2 : Hst v H n W Hp cl) (h3 : Torn M v H n Hp) {y : PtW K V} (hv : v i = some (.inl op, .inl y))
    (hw : w ≤ n) (hn : ∀ w, w ≤ n → (W w).v i = none) (he : w < n → HasInv (Hp (w + 1)) i) :
    Rel M (upd v i (some (.inl op, up (startStep (W w).g op)))) H := by
  have hm : M.g.mu ≠ some i := h1.nomu hv (by rw [hn n (Nat.le_refl _)]; simp)
  have ok := (h1.ok w hw).enter op (hn w hw)
  obtain ⟨gh', ok', hh⟩ := ok.run (i := i) (c := 0) (s := .start) (g' := (W w).g) (x := startStep (W w).g op) (by simp) rfl
  simp only [upd_upd] at ok'
  refine ⟨n, upd W w ⟨(W w).g, upd (W w).v i (some (op, startStep (W w).g op)), gh', (W w).lo⟩, Hp, cl, ?_, ?_, ?_⟩
  · refine h1.free hv hm hw ok' ⟨_, _, rfl⟩ ⟨rfl, rfl, rfl, rfl, rfl, rfl⟩ ?_ ?_
    · intro w' hw' e q1 q2
      rw [h1.ptr w' hw' e q1 q2]
      by_cases e' : w' = w
      · subst e'; simp
      · simp [e']
    · refine callRel_up hw (by simp) (fun w' q1 q2 => ?_) start_start (fun h => by rw [start_locked] at h; simp at h)
      rw [upd_ne _ _ q2]; exact Or.inl (hn w' q1)
  · exact h2.enter hv hw he (hn w hw) hh
  · refine h3.step (up_ne (by simp)) (fun h => absurd h (up_ne (by simp))) (fun h1 h2 => ⟨h1, h2⟩) ?_
    intro h
    exact absurd (show upd (W w).v i (some (op, startStep (W w).g op)) i = some (op, .inr .panic) by simp [up_panic h]) (ok'.calm i op)

/-- A step without the lock. -/
theorem rel_free (h1 : Phys M v n W) (h2 : Hst v H n W Hp cl) (h3 : Torn M v H n Hp) {s : Pt K V} (hv : v i = some (.inl op, .inl (.pt s)))
    (hh : s.holds = false) (hs : s ≠ .start) (hl : s ≠ .lock) (hw : w ≤ n) (hvw : (W w).v i = some (op, .inl s))
    (hoth : ∀ w', w' ≤ n → w' ≠ w → Away (W w') i op) {r : GMap K Nat × Bool} {g' : G K V} {x : Pt K V ⊕ Res K V}
    (hst : step (M.with r) i op s c = some (g', x)) : Rel { M with g := g' } (upd v i (some (.inl op, up x))) H := by
  have okw := h1.ok w hw
  have hents := okw.ents hvw
  have hm : M.g.mu ≠ some i := by
    refine h1.nomu hv ?_
    intro o t ht
    by_cases e : w = n
    · subst e; rw [hvw] at ht; simp at ht; rw [← ht.2]; exact hh
    · rcases hoth n (Nat.le_refl _) (fun h => e h.symm) with h | h <;> rw [h] at ht <;> simp at ht
      rw [← ht.2]; rfl
  obtain ⟨b', hb, hf⟩ := step_free (a := M.with r) (b := (W w).g) hh hs hl (fun e he => h1.ptr w hw e (hents e he).1 (hents e he).2) hst
  obtain ⟨gh', ok', hhist⟩ := okw.run hvw hb
  obtain ⟨pa, ka, ea⟩ := hf.left
  obtain ⟨pb, kb, eb⟩ := hf.right
  refine ⟨n, upd W w ⟨b', upd (W w).v i (some (op, x)), gh', (W w).lo⟩, Hp, cl, ?_, ?_, ?_⟩
  · refine h1.free hv hm hw ok' hf.right ?_ ?_ ?_
    · subst ea; exact ⟨rfl, rfl, rfl, rfl, rfl, rfl⟩
    · intro w' hw' e q1 q2
      have hpe := h1.ptr w' hw' e q1 q2
      rcases hf.p with ⟨p1, p2⟩ | ⟨e₀, he₀, y, p1, p2⟩
      · show g'.p e = _
        rw [p1]
        show M.g.p e = _
        rw [hpe]
        split
        · rename_i e'; subst e'; rw [p2]
        · rfl
      · show g'.p e = _
        rw [p1]
        have hr := hents e₀ he₀
        by_cases e' : w' = w
        · subst e'
          rw [if_pos rfl, p2]
          by_cases ee : e = e₀
          · subst ee; simp
          · rw [upd_ne _ _ ee, upd_ne _ _ ee]; exact hpe
        · rw [if_neg e']
          have ee : e ≠ e₀ := by
            rintro rfl
            rcases Nat.lt_or_gt_of_ne e' with h | h
            · have := h1.apart w' w h hw; omega
            · have := h1.apart w w' h hw'; omega
          rw [upd_ne _ _ ee]; exact hpe
    · refine callRel_up hw (by simp) (fun w' q1 q2 => ?_) (step_start hst) ?_
      · rw [upd_ne _ _ q2]; exact hoth w' q1 q2
      · intro hx
        cases x with
        | inr r => simp [lockedX] at hx
        | inl s' =>
          have k1 := (ok'.inv.mu i op s' (by simp)).1 hx
          subst eb
          have k2 := (okw.inv.mu i op s hvw).2 k1
          rw [hh] at k2; simp at k2
  · exact h2.run hv hvw hhist
  · refine h3.step (up_ne (by simp)) (fun h => absurd h (up_ne (by simp))) (fun h1 h2 => ⟨h1, h2⟩) ?_
    intro h
    exact absurd (show upd (W w).v i (some (op, x)) i = some (op, .inr .panic) by simp [up_panic h]) (ok'.calm i op)

/-- A step with the lock. -/
theorem rel_held (h1 : Phys M v n W) (h2 : Hst v H n W Hp cl) (h3 : Torn M v H n Hp) {y : PtW K V} {s : Pt K V} (hv : v i = some (.inl op, .inl y))
    (hh : s.holds = true) (hvw : (W n).v i = some (op, .inl s)) (hoth : ∀ w', w' ≤ n → w' ≠ n → Away (W w') i op)
    (hval : M.val = ((W n).g.read, (W n).g.amended)) (hlow : Lower M (W n).g) {x : Pt K V ⊕ Res K V}
    (hst : step (M.with M.val) i op s c = some (M'.g, x))
    (hM : (stores s = false ∧ Calm M (W n).g ∧ M'.typ = M.typ ∧ M'.data = M.data) ∨ (M'.typ = .readOnly ∧ M'.data = some (M'.g.read, M'.g.amended))) :
    Rel M' (upd v i (some (.inl op, up x))) H := by
  have okn := h1.ok n (Nat.le_refl _)
  have hents := okn.ents hvw
  have hmw := (okn.inv.mu i op s hvw).1 hh
  have hm := ((h1.mu i).1 hmw).1
  have agree : Agree (W n).lo (M.with M.val) (W n).g := by
    refine ⟨?_, ?_, ?_, hlow.1, hlow.2, h1.next, okn.lo, h1.ptr n (Nat.le_refl _)⟩
    · rw [hmw]; exact hm
    · rw [hval]; rfl
    · rw [hval]; rfl
  obtain ⟨b', hb, ha⟩ := step_agree agree hents hst
  obtain ⟨gh', ok', hhist⟩ := okn.run hvw hb
  refine ⟨n, upd W n ⟨b', upd (W n).v i (some (op, x)), gh', (W n).lo⟩, Hp, cl, ?_, ?_, ?_⟩
  · refine h1.locked hv (Or.inr hm) ok' ha.mu ha.next ha.p ?_ ?_ hoth (step_start hst)
    · intro e he
      refine step_ptr (g := M.with M.val) hst (fun h => ?_) ?_
      · have := (hents e h).1; omega
      · show e < M.g.next
        rw [h1.next]; have := okn.lo; omega
    · refine ⟨?_, ha.dirty, ha.misses⟩
      rcases hM with ⟨q1, q2, q3, q4⟩ | ⟨q1, q2⟩
      · obtain ⟨r1, r2⟩ := step_words hb q1
        rw [q3, q4, r1, r2]; exact q2.1
      · rw [ha.read, ha.amended] at q2
        exact Or.inl ⟨q1, q2⟩
  · exact h2.run hv hvw hhist
  · refine h3.step (up_ne (by simp)) (fun h => absurd h (up_ne (by simp))) (fun h1 h2 => ?_) ?_
    · rcases hM with ⟨_, _, q3, q4⟩ | ⟨q1, q2⟩
      · rw [q3, q4]; exact ⟨h1, h2⟩
      · exact ⟨q1, by rw [q2]; simp⟩
    intro h
    exact absurd (show upd (W n).v i (some (op, x)) i = some (op, .inr .panic) by simp [up_panic h]) (ok'.calm i op)

/-- A call takes the lock. -/
theorem rel_lock (h1 : Phys M v n W) (h2 : Hst v H n W Hp cl) (h3 : Torn M v H n Hp) (hv : v i = some (.inl op, .inl (.pt .lock)))
    (ha : ∀ w, w ≤ n → Away (W w) i op) (hm : M.g.mu = none) {g' : G K V} (hg : g' = { M.with M.val with mu := some i }) :
    Rel { M with g := g' } (upd v i (some (.inl op, .inl (.pt .locked)))) H := by
  have okn := h1.ok n (Nat.le_refl _)
  have hmw : (W n).g.mu = none := by
    cases hg : (W n).g.mu with
    | none => rfl
    | some j => have := ((h1.mu j).1 hg).1; rw [hm] at this; simp at this
  have hcalm : Calm M (W n).g := by have := h1.cur; rw [hm] at this; exact this
  have hst : ∀ g : G K V, g.mu = none → step g i op .lock 0 = some ({ g with mu := some i }, .inl .locked) := by
    intro g hg; simp [step, hg]
  subst hg
  suffices hk : ∃ gh', World.Ok ⟨{ (W n).g with mu := some i }, upd (W n).v i (some (op, .inl .locked)), gh', (W n).lo⟩ ∧
      Hst (upd v i (some (.inl op, .inl (.pt .locked)))) H n
        (upd W n ⟨{ (W n).g with mu := some i }, upd (W n).v i (some (op, .inl .locked)), gh', (W n).lo⟩) Hp cl by
    obtain ⟨gh', ok', hs⟩ := hk
    refine ⟨n, _, Hp, cl, ?_, hs, ?_⟩
    · exact h1.locked (z := .inl .locked) hv (Or.inl hm) ok' rfl h1.next (h1.ptr n (Nat.le_refl _)) (fun _ _ => rfl) hcalm (fun w' q1 _ => ha w' q1) (by simp)
    · exact h3.step (by simp) (by simp) (fun h1 h2 => ⟨h1, h2⟩) (by simp)
  rcases ha n (Nat.le_refl _) with hn | hl
  · have ok1 := (okn.enter op hn).toLock (i := i) (op := op) (by simp)
    obtain ⟨gh', ok', hh⟩ := ok1.run (i := i) (c := 0) (s := .lock) (by simp) (hst _ hmw)
    simp only [upd_upd] at ok'
    exact ⟨gh', ok', h2.enter hv (Nat.le_refl _) (fun h => absurd h (Nat.lt_irrefl _)) hn hh⟩
  · obtain ⟨gh', ok', hh⟩ := okn.run hl (hst _ hmw)
    exact ⟨gh', ok', h2.run hv hl hh⟩

omit [DecidableEq K] [DecidableEq V] in
theorem Calm.val {g : G K V} (h : Calm M g) : M.val = (g.read, g.amended) := by
  rcases h.1 with ⟨h1, h2⟩ | ⟨h1, h2, h3, h4⟩
  · simp [GW.val, h1, h2]
  · simp [GW.val, h1, h3, h4]

theorem rel_op (h1 : Phys M v n W) (h2 : Hst v H n W Hp cl) (h3 : Torn M v H n Hp) {s : PtW K V} (hv : v i = some (.inl op, .inl s))
    {x : PtW K V ⊕ Res K V} (hst : opW M i op s c = some (M', x)) : Rel M' (upd v i (some (.inl op, x))) H := by
  have hc := h1.calls i
  rw [hv] at hc
  cases s with
  | cl p => exact hc.elim
  | typ =>
    have hm : M.g.mu ≠ some i := h1.nomu hv (by rw [hc n (Nat.le_refl _)]; simp)
    simp only [opW, Option.some.injEq, Prod.mk.injEq] at hst
    obtain ⟨rfl, rfl⟩ := hst
    by_cases ht : M.typ = .readOnly
    · rw [if_pos ht]
      refine ⟨n, W, Hp, cl, h1.move hv hm hc, h2.move hv (by simp), h3.step (by simp) (fun _ => ⟨?_, ?_⟩) (fun h1 h2 => ⟨h1, h2⟩) (by simp)⟩
      · intro j o hj
        have := h1.atData hj
        rw [ht] at this; simp at this
      · cases hd : M.data with
        | some r => exact Or.inl ⟨ht, by simp⟩
        | none =>
          obtain ⟨j, q, hj⟩ := h1.torn ht hd
          exact Or.inr (overlapped_pending h2 hv hj)
    · rw [if_neg ht]
      obtain ⟨r1, r2⟩ := h1.notRead ht
      rw [start_congr (h := (W n).g) (by rw [r1]; rfl) (by rw [r2]; rfl)]
      exact rel_enter h1 h2 h3 hv (Nat.le_refl _) hc (fun h => absurd h (Nat.lt_irrefl _))
  | data =>
    have hm : M.g.mu ≠ some i := h1.nomu hv (by rw [hc n (Nat.le_refl _)]; simp)
    simp only [opW] at hst
    cases hd : M.data with
    | none =>
      simp only [hd, Option.some.injEq, Prod.mk.injEq] at hst
      obtain ⟨rfl, rfl⟩ := hst
      refine ⟨n, W, Hp, cl, h1.move hv hm (Or.inr ⟨rfl, hc⟩), h2.move hv (by simp), h3.step (by simp) (by simp) (fun h1 h2 => ⟨h1, h2⟩) (fun _ => ?_)⟩
      rcases h3.seen i op hv with h | h
      · exact absurd hd h.2
      · exact h
    | some r =>
      simp only [hd, Option.some.injEq, Prod.mk.injEq] at hst
      obtain ⟨rfl, rfl⟩ := hst
      rcases h1.read hd with rfl | ⟨hn, rfl, j, o, hj⟩ | rfl
      · rw [start_congr (g := M.with _) (h := (W n).g) rfl rfl]
        exact rel_enter h1 h2 h3 hv (Nat.le_refl _) hc (fun h => absurd h (Nat.lt_irrefl _))
      · rw [start_congr (g := M.with _) (h := (W (n - 1)).g) rfl rfl]
        refine rel_enter h1 h2 h3 hv (Nat.sub_le _ _) hc (fun _ => ?_)
        rw [Nat.sub_add_cancel hn]
        exact h3.stale j o hj i op hv
      · have e : startStep (M.with ([], true)) op = .inl .lock := by
          cases op <;> simp [startStep, GW.with]
        rw [e]
        exact ⟨n, W, Hp, cl, h1.move hv hm (fun w hw => Or.inl (hc w hw)), h2.move hv (by simp),
          h3.step (by simp [up]) (by simp [up]) (fun h1 h2 => ⟨h1, h2⟩) (by simp [up])⟩
  | first s =>
    obtain ⟨rfl, w, hw, hvw, hwn, hoth⟩ := hc
    have := hwn rfl
    subst this
    have okn := h1.ok w (Nat.le_refl _)
    have hm := ((h1.mu i).1 ((okn.inv.mu i op _ hvw).1 rfl)).1
    have hcur := h1.cur
    rw [hm] at hcur
    simp only [Option.bind_some, hv] at hcur
    obtain ⟨q1, q2, q3, q4, q5⟩ := hcur
    simp only [opW, step] at hst
    cases ha : afterAmend op with
    | none => simp [ha] at hst
    | some s' =>
      simp only [ha, Option.some.injEq, Prod.mk.injEq] at hst
      obtain ⟨rfl, rfl⟩ := hst
      refine ⟨w, W, Hp, cl, h1.words hv hm rfl ⟨q1, rfl, q3, q4, q5⟩ ⟨rfl, w, hw, hvw, hwn, hoth⟩, h2.move hv (by simp), ?_⟩
      exact h3.step (by simp) (by simp) (fun h1 _ => by rw [q1] at h1; simp at h1) (by simp)
  | last s =>
    obtain ⟨rfl, w, hw, hvw, hwn, hoth⟩ := hc
    have := hwn rfl
    subst this
    have okn := h1.ok w (Nat.le_refl _)
    have hm := ((h1.mu i).1 ((okn.inv.mu i op _ hvw).1 rfl)).1
    have hcur := h1.cur
    rw [hm] at hcur
    simp only [Option.bind_some, hv] at hcur
    obtain ⟨q1, q2, q3, q4, q5⟩ := hcur
    simp only [opW] at hst
    cases hs : step (M.with M.val) i op (.amend []) c with
    | none => simp [hs] at hst
    | some y =>
      obtain ⟨g', z⟩ := y
      simp only [hs, Option.some.injEq, Prod.mk.injEq] at hst
      obtain ⟨rfl, rfl⟩ := hst
      refine rel_held h1 h2 h3 hv rfl hvw hoth (by simp [GW.val, q1, q3, q4]) q5 hs (Or.inr ⟨rfl, ?_⟩)
      simp only [step] at hs
      cases ha : afterAmend op with
      | none => simp [ha] at hs
      | some s' =>
        simp only [ha, Option.some.injEq, Prod.mk.injEq] at hs
        obtain ⟨rfl, _⟩ := hs
        exact q2
  | pt s =>
    by_cases hl : s = .lock
    · subst hl
      simp only [opW, stores, reloads, Bool.false_eq_true, if_false, Bool.false_and] at hst
      cases hs : step (M.with M.val) i op .lock c with
      | none => simp [hs] at hst
      | some y =>
        obtain ⟨g', z⟩ := y
        simp only [hs, Option.some.injEq, Prod.mk.injEq] at hst
        obtain ⟨rfl, rfl⟩ := hst
        simp only [step] at hs
        split at hs
        · simp at hs
        · rename_i hmu
          simp only [Option.some.injEq, Prod.mk.injEq] at hs
          obtain ⟨e, rfl⟩ := hs
          have hm : M.g.mu = none := by simpa [GW.with] using hmu
          exact rel_lock h1 h2 h3 hv hc hm e.symm
    · obtain ⟨hs0, w, hw, hvw, hwn, hoth⟩ := (callRel_pt hl).1 hc
      cases hh : s.holds with
      | false =>
        have e1 : stores s = false := by cases s <;> simp_all [stores, Pt.holds]
        have e2 : reloads s = false := by cases s <;> simp_all [reloads, Pt.holds]
        simp only [opW, e1, e2, Bool.false_eq_true, if_false, Bool.false_and] at hst
        cases hs : step (M.with M.val) i op s c with
        | none => simp [hs] at hst
        | some y =>
          obtain ⟨g', z⟩ := y
          simp only [hs, Option.some.injEq, Prod.mk.injEq] at hst
          obtain ⟨rfl, rfl⟩ := hst
          exact rel_free h1 h2 h3 hv hh hs0 hl hw hvw hoth hs
      | true =>
        have := hwn hh
        subst this
        have okn := h1.ok w (Nat.le_refl _)
        have hm := ((h1.mu i).1 ((okn.inv.mu i op _ hvw).1 hh)).1
        have hcalm : Calm M (W w).g := by
          have hcur := h1.cur
          rw [hm] at hcur
          simp only [Option.bind_some, hv] at hcur
          exact hcur
        simp only [opW] at hst
        split at hst
        · rename_i hsto
          cases ht : M.typ with
          | storing => rcases hcalm.1 with h | h <;> simp [ht] at h
          | nil =>
            simp only [ht, Option.some.injEq, Prod.mk.injEq] at hst
            obtain ⟨rfl, rfl⟩ := hst
            obtain ⟨_, q2, q3, q4⟩ : M.typ = .nil ∧ M.data = none ∧ (W w).g.read = [] ∧ (W w).g.amended = false := by
              rcases hcalm.1 with h | h
              · simp [ht] at h
              · exact h
            have hs : s = .amend [] := by
              have hl := okn.inv.lloc i op s hvw hh
              have hmu := (okn.inv.mu i op s hvw).1 hh
              have hnot : s.mode = none → LLoc (W w).g op s → (W w).g.a.has = true → False := by
                intro e1 _ e2
                have := okn.inv.gi.ready (by simp [modeAt, hmu, hvw, e1]) e2
                simp only [G.a, q4] at this
                simp at this
              cases s <;> simp only [stores, Bool.false_eq_true] at hsto
              · exact (hnot rfl hl hl).elim
              · exact (hnot rfl hl hl).elim
              · have := hl.1
                rw [this, q3]
            subst hs
            refine ⟨w, W, Hp, cl, h1.words hv hm rfl ⟨rfl, q2, q3, q4, hcalm.2⟩ ⟨rfl, w, hw, hvw, fun _ => rfl, hoth⟩, h2.move hv (by simp), ?_⟩
            exact h3.step (by simp) (by simp) (fun h1 _ => by rw [ht] at h1; simp at h1) (by simp)
          | readOnly =>
            simp only [ht] at hst
            cases hs : step (M.with M.val) i op s c with
            | none => simp [hs] at hst
            | some y =>
              obtain ⟨g', z⟩ := y
              simp only [hs, Option.some.injEq, Prod.mk.injEq] at hst
              obtain ⟨rfl, rfl⟩ := hst
              exact rel_held h1 h2 h3 hv hh hvw hoth hcalm.val hcalm.2 hs (Or.inr ⟨rfl, rfl⟩)
        · rename_i hsto
          split at hst
          · rename_i hr
            simp only [Bool.and_eq_true, decide_eq_true_eq, Option.isNone_iff_eq_none] at hr
            rcases hcalm.1 with h | h
            · rw [hr.2] at h; simp at h
            · rw [hr.1.2] at h; simp at h
          · cases hs : step (M.with M.val) i op s c with
            | none => simp [hs] at hst
            | some y =>
              obtain ⟨g', z⟩ := y
              simp only [hs, Option.some.injEq, Prod.mk.injEq] at hst
              obtain ⟨rfl, rfl⟩ := hst
              exact rel_held h1 h2 h3 hv hh hvw hoth hcalm.val hcalm.2 hs (Or.inl ⟨by simpa using hsto, hcalm, rfl, rfl⟩)

omit [DecidableEq V] in
theorem rel_clear (h1 : Phys M v n W) (h2 : Hst v H n W Hp cl) (h3 : Torn M v H n Hp) {q : ClearOp} {p : ClPt} (hv : v i = some (.inr q, .inl (.cl p)))
    {x : PtW K V ⊕ Res K V} (hst : clearW M i p c = some (M', x)) : Rel M' (upd v i (some (.inr q, x))) H := by
  obtain rfl : q = .clear := by cases q; rfl
  have hcm := h1.cmu i _ p hv
  have hcur := h1.cur
  have hin : ∀ w, w ≤ n → ∀ j, (W w).v j ≠ none → v j ≠ none := by
    intro w hw j hj
    cases hvj : (W w).v j with
    | none => exact absurd hvj hj
    | some y => obtain ⟨z, hz⟩ := (h1.calls j).inl hw hvj; rw [hz]; simp
  cases p with
  | lock =>
    simp only [clearW] at hst
    cases hm : M.g.mu with
    | some j => simp [hm] at hst
    | none =>
      simp only [hm, Option.some.injEq, Prod.mk.injEq] at hst
      obtain ⟨rfl, rfl⟩ := hst
      rw [hm] at hcur
      refine ⟨n, W, Hp, cl, h1.clr hv (Or.inl hm) rfl rfl (Or.inl ⟨_, rfl, by simp, rfl⟩) ?_, h2.move hv ?_, h3.step (by simp) (by simp) (fun h1 h2 => ⟨h1, h2⟩) (by simp)⟩
      · simp only [Option.bind_some, upd_same]; exact hcur
      · intro _ _; exact ⟨Iff.rfl, by simp⟩
  | read =>
    have hm := hcm.1 (by simp)
    rw [hm] at hcur
    simp only [Option.bind_some, hv] at hcur
    have hcalm : Calm M (W n).g := hcur
    simp only [clearW] at hst
    split at hst <;> simp only [Option.some.injEq, Prod.mk.injEq] at hst <;> obtain ⟨rfl, rfl⟩ := hst
    · refine ⟨n + 1, _, _, _, h1.commit hv (by simp) rfl ⟨rfl, by omega, ?_, rfl, rfl, rfl, rfl⟩, h2.commit hv (by trivial) hin M.g, h3.commit h2 hv⟩
      intro r (hr : M.data = some r)
      rcases hcalm.1 with h | h
      · have := h.2; rw [hr, Option.some.injEq] at this; exact this
      · rw [h.2.1] at hr; simp at hr
    · refine ⟨n + 1, _, _, _, h1.commit hv (by simp) rfl ⟨rfl, ?_, rfl, rfl, rfl, rfl⟩, h2.commit hv (by trivial) hin M.g, h3.commit h2 hv⟩
      intro (h : M.typ = .storing)
      rcases hcalm.1 with h' | h' <;> simp [h] at h'
  | data =>
    have hm := hcm.1 (by simp)
    rw [hm] at hcur
    simp only [Option.bind_some, hv] at hcur
    simp only [clearW, Option.some.injEq, Prod.mk.injEq] at hst
    obtain ⟨rfl, rfl⟩ := hst
    obtain ⟨q1, q2, q3, q4⟩ := hcur
    refine ⟨n, W, Hp, cl, h1.clr hv (Or.inr hm) rfl rfl (Or.inl ⟨_, rfl, by simp, hm⟩) ?_, h2.move hv ?_,
      h3.step (by simp) (by simp) (fun h1 _ => by rw [q1] at h1; simp at h1) (by simp)⟩
    · simp only [hm, Option.bind_some, upd_same]; exact ⟨q1, rfl, q4⟩
    · intro _ _; exact ⟨Iff.rfl, by simp⟩
  | typ =>
    have hm := hcm.1 (by simp)
    rw [hm] at hcur
    simp only [Option.bind_some, hv] at hcur
    simp only [clearW, Option.some.injEq, Prod.mk.injEq] at hst
    obtain ⟨rfl, rfl⟩ := hst
    obtain ⟨q1, q2, q3⟩ := hcur
    refine ⟨n, W, Hp, cl, h1.clr hv (Or.inr hm) rfl rfl (Or.inl ⟨_, rfl, by simp, hm⟩) ?_, h2.move hv ?_,
      h3.step (by simp) (by simp) (fun _ h => absurd q1 h) (by simp)⟩
    · simp only [hm, Option.bind_some, upd_same]; exact ⟨rfl, q1, q3⟩
    · intro _ _; exact ⟨Iff.rfl, by simp⟩
  | dirty =>
    have hm := hcm.1 (by simp)
    rw [hm] at hcur
    simp only [Option.bind_some, hv] at hcur
    simp only [clearW, Option.some.injEq, Prod.mk.injEq] at hst
    obtain ⟨rfl, rfl⟩ := hst
    obtain ⟨q1, q2, q3⟩ := hcur
    refine ⟨n, W, Hp, cl, h1.clr hv (Or.inr hm) rfl rfl (Or.inl ⟨_, rfl, by simp, hm⟩) ?_, h2.move hv ?_,
      h3.step (by simp) (by simp) (fun h1 h2 => ⟨h1, h2⟩) (by simp)⟩
    · simp only [hm, Option.bind_some, upd_same]; exact ⟨q1, q2, q3, rfl⟩
    · intro _ _; exact ⟨Iff.rfl, by simp⟩
  | misses =>
    have hm := hcm.1 (by simp)
    rw [hm] at hcur
    simp only [Option.bind_some, hv] at hcur
    simp only [clearW, Option.some.injEq, Prod.mk.injEq] at hst
    obtain ⟨rfl, rfl⟩ := hst
    obtain ⟨q1, q2, q3, q4⟩ := hcur
    refine ⟨n, W, Hp, cl, h1.clr hv (Or.inr hm) rfl rfl (Or.inl ⟨_, rfl, by simp, hm⟩) ?_, h2.move hv ?_,
      h3.step (by simp) (by simp) (fun h1 h2 => ⟨h1, h2⟩) (by simp)⟩
    · simp only [hm, Option.bind_some, upd_same]; exact ⟨q1, q2, q3, q4, rfl⟩
    · intro _ _; exact ⟨Iff.rfl, by simp⟩
  | unlock =>
    have hm := hcm.1 (by simp)
    rw [hm] at hcur
    simp only [Option.bind_some, hv] at hcur
    simp only [clearW, Option.some.injEq, Prod.mk.injEq] at hst
    obtain ⟨rfl, rfl⟩ := hst
    obtain ⟨q1, q2, ⟨q3, q4, q5, q6⟩, q7, q8⟩ := hcur
    refine ⟨n, W, Hp, cl, h1.clr hv (Or.inr hm) rfl rfl (Or.inr ⟨⟨_, rfl⟩, rfl⟩) ?_, h2.move hv ?_,
      h3.step (by simp) (by simp) (fun h1 h2 => ⟨h1, h2⟩) (by simp)⟩
    · simp only [Option.bind_none]; exact ⟨Or.inr ⟨q1, q2, q3, q4⟩, by simp [Lower, q7, q8, q5, q6]⟩
    · intro _ _; exact ⟨Iff.rfl, by simp⟩

omit [DecidableEq V] in
theorem rel_ret (h : Rel M v H) {o : Op K V ⊕ ClearOp} {r : Res K V} (hv : v i = some (o, .inr r)) : Rel M v (H ++ [.ret i r]) := by
  obtain ⟨n, W, Hp, cl, h1, h2, h3⟩ := h
  have hc := h1.calls i
  rw [hv] at hc
  by_cases hr : HasRet H i
  · obtain ⟨r', hr⟩ := hr
    obtain ⟨o', ho⟩ := h2.ret i r' hr
    rw [hv] at ho
    simp only [Option.some.injEq, Prod.mk.injEq, Sum.inr.injEq] at ho
    rw [← ho.2] at hr
    exact ⟨n, W, Hp, cl, h1, h2.retOut hv (Or.inl hr), h3.ret h2 r⟩
  · have out : (∀ w, w ≤ n → (W w).v i = none) → Rel M v (H ++ [.ret i r]) := fun hn =>
      ⟨n, W, Hp, cl, h1, h2.retOut hv (Or.inr fun w hw op h => by rw [hn w hw] at h; simp at h), h3.ret h2 r⟩
    cases o with
    | inr q => exact out hc
    | inl op =>
      rcases hc with ⟨w, hw, hvw, _, hoth⟩ | ⟨_, hn⟩
      · have hd : (W w).gh.st i ≠ .done := by
          intro hd
          obtain ⟨r', hr'⟩ := (h1.ok w hw).reach.done_ret i hd
          exact hr ⟨r', ((h2.wret w hw i r').1 hr').1⟩
        obtain ⟨gh', ok', hh⟩ := (h1.ok w hw).ret hvw hd
        exact ⟨n, _, Hp, cl, h1.ret ok', h2.retIn hv hr hvw hoth hh, h3.ret h2 r⟩
      · exact out hn

omit [DecidableEq V] in
theorem rel_init : Rel (⟨.zero, .nil, none⟩ : GW K V) (fun _ => none) [] := by
  refine ⟨0, fun _ => World.new .zero, fun _ => [], fun _ => 0, ?_, ?_, ?_⟩
  · refine ⟨fun _ _ => World.new_ok _, by omega, rfl, fun _ _ _ _ _ => rfl, by omega, ?_, by simp, by simp [G.zero], ?_, ?_⟩
    · intro i; simp [World.new, G.cleared]
    · exact ⟨Or.inr ⟨rfl, rfl, rfl, rfl⟩, rfl, rfl⟩
    · intro i w _; rfl
  · refine ⟨by simp, by simp, fun _ _ => Cut.self _, fun _ _ _ _ _ h => h, by omega, ?_, ?_, ?_, ?_, by omega, by omega, by simp, by simp⟩
    · intro w _ i h; simp [World.new] at h
    · intro w _ i op h; simp [World.new, Ghost.init] at h
    · intro w _ i r; simp [World.new, Ghost.init]
    · intro w _ a b h; simp [World.new, Ghost.init, HasRet] at h
  · exact ⟨by simp, by simp, by simp⟩

theorem rel_exec {m : Conf (GW K V) (Op K V ⊕ ClearOp) (Res K V) (PtW K V)} (h : (progW (K := K) (V := V)).mach.Exec m H) : Rel m.g m.view H := by
  refine progW.induct Rel rel_init ?_ ?_ ?_ h
  · rintro M v H i op ⟨n, W, Hp, cl, h1, h2, h3⟩ hv
    have hn : ∀ w, w ≤ n → (W w).v i = none := by have := h1.calls i; rw [hv] at this; exact this
    have := h1.invoke (o := op) hv
    cases op with
    | inl op => exact ⟨n, W, Hp, cl, this, h2.invoke _ hv hn (by simp), h3.invoke h2 hv (by simp [progW]) (by simp [progW])⟩
    | inr q => exact ⟨n, W, Hp, cl, this, h2.invoke _ hv hn (fun _ _ h => h), h3.invoke h2 hv (by simp [progW]) (by simp [progW])⟩
  · rintro M v H i op s c M' x ⟨n, W, Hp, cl, h1, h2, h3⟩ hv hst
    cases op with
    | inl op => exact rel_op h1 h2 h3 hv hst
    | inr q =>
      cases s with
      | cl p => exact rel_clear h1 h2 h3 hv hst
      | _ => simp [progW, stepW] at hst
  · intro M v H i op r h hv
    exact rel_ret h hv

end

end Verif.XSync.MapWords

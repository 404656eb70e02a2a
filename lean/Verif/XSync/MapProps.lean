import Verif.XSync.MapLemmas
/-! # Property theorems for sequential histories of `xsync.Map` (C18, C19, C20) -/
namespace Verif.XSync.Map
open Verif.Go

variable {K V : Type} [DecidableEq K]

theorem abs_read {s : State K V} {k : K} {e : Nat} (hr : s.read.get k = some e) : s.abs k = (s.p e).get? := by
  simp [State.abs, State.ent, hr]

theorem abs_dirty {s : State K V} {k : K} (hr : s.read.get k = none) : s.abs k = (s.dget k).bind fun e => (s.p e).get? := by
  simp [State.abs, State.ent, hr]

theorem ent_read {s : State K V} {k : K} {e : Nat} (hr : s.read.get k = some e) : s.ent k = some e := by simp [State.ent, hr]
theorem ent_dirty {s : State K V} {k : K} (hr : s.read.get k = none) : s.ent k = s.dget k := by simp [State.ent, hr]

theorem dget_amended {s : State K V} (h : WF s) {k : K} {e : Nat} (hd : s.dget k = some e) : s.amended = true ∧ s.dirty.isSome = true := by
  cases hdd : s.dirty with
  | none => simp [State.dget, hdd] at hd
  | some d => have := h.am; rw [hdd] at this; simpa using this

theorem dget_none {s : State K V} (h : WF s) (ha : s.amended = false) (k : K) : s.dget k = none := by
  cases hd : s.dget k with
  | none => rfl
  | some e => have := (dget_amended h hd).1; rw [ha] at this; simp at this

theorem abs_set_val {s : State K V} (h : WF s) {k : K} {e : Nat} (v : V) (hk : s.ent k = some e) : (s.setP e (.val v)).abs = s.abs.set k v := by
  rw [abs_setP h _ hk]; rfl

theorem abs_set_nil {s : State K V} (h : WF s) {k : K} {e : Nat} (hk : s.ent k = some e) : (s.setP e .nil).abs = s.abs.del k := by
  rw [abs_setP h _ hk]; rfl

theorem addNew_amend {s : State K V} (h : WF s) {k : K} (hk : s.ent k = none) (v : V) :
    ∃ s', addNew (amend s) k v = some s' ∧ WF s' ∧ s'.abs = s.abs.set k v := by
  obtain ⟨h1, h2, h3, h4, h5⟩ := amend_spec h
  have hr : s.read.get k = none := by
    simp only [State.ent] at hk
    cases hr : s.read.get k with
    | none => rfl
    | some e => rw [hr] at hk; simp at hk
  obtain ⟨s', e1, e2, e3⟩ := addNew_spec h1 h3 k v (by rw [h4]; exact hr)
  exact ⟨s', e1, e2, by rw [e3, h2]⟩

/-- Removing an entry that is only in `dirty`. -/
theorem wf_dirtyDel {s : State K V} (h : WF s) {k : K} (hr : s.read.get k = none) (ha : s.amended = true) :
    WF { s with dirty := s.dirty.map (·.del k) } ∧ ({ s with dirty := s.dirty.map (·.del k) } : State K V).abs = s.abs.del k := by
  cases hdd : s.dirty with
  | none => have := h.am; rw [hdd, ha] at this; simp at this
  | some d =>
    constructor
    · obtain ⟨rk, dk, am, rid, did, rinj, dinj, cross, rde, rdn, clean, dne⟩ := h
      simp only [State.dget, hdd, Option.getD_some, Option.isSome_some] at *
      constructor <;> simp only [State.dget, Option.map_some, Option.getD_some, Option.isSome_some, GMap.get_del]
      · exact rk
      · exact GMap.wf_del dk k
      · exact am
      all_goals grind
    · funext k'
      simp only [State.abs, State.ent, State.dget, Option.map_some, Option.getD_some, GMap.get_del, hdd, M.del]
      by_cases hk : k' = k
      · subst hk; simp [hr]
      · simp [hk]

theorem deleteEntry_out {s : State K V} (h : WF s) {e : Nat} (he : ∀ k, s.ent k ≠ some e) (hp : s.p e ≠ .expunged) :
    WF (deleteEntry s e).1 ∧ (deleteEntry s e).1.abs = s.abs ∧ (deleteEntry s e).2 = (s.p e).get? := by
  simp only [deleteEntry]
  cases hv : s.p e with
  | val w =>
    refine ⟨wf_setP h e .nil (by simp) hp, ?_, rfl⟩
    funext k
    have hent : (s.setP e .nil).ent k = s.ent k := rfl
    simp only [State.abs, hent]
    cases hk : s.ent k with
    | none => rfl
    | some e' => have : e' ≠ e := by rintro rfl; exact he k hk
                 simp [State.setP, this]
  | nil => exact ⟨h, rfl, rfl⟩
  | expunged => exact absurd hv hp

theorem deleteEntry_in {s : State K V} (h : WF s) {k : K} {e : Nat} (he : s.ent k = some e) :
    WF (deleteEntry s e).1 ∧ (deleteEntry s e).1.abs = s.abs.del k ∧ (deleteEntry s e).2 = (s.p e).get? := by
  have hab : s.abs k = (s.p e).get? := by simp [State.abs, he]
  have hsame : (s.p e).get? = none → s.abs = s.abs.del k := by
    intro hn
    funext k'
    by_cases hk : k' = k
    · subst hk; simp [M.del, hab, hn]
    · simp [M.del, hk]
  simp only [deleteEntry]
  cases hv : s.p e with
  | val w => exact ⟨wf_setP h e .nil (by simp) (by simp [hv]), abs_set_nil h he, rfl⟩
  | nil => exact ⟨h, hsame (by simp [hv, Ptr.get?]), rfl⟩
  | expunged => exact ⟨h, hsame (by simp [hv, Ptr.get?]), rfl⟩

theorem missLocked_ent (s : State K V) : ∀ k e, (missLocked s).ent k = some e → s.read.get k = some e ∨ s.dget k = some e := by
  intro k e he
  simp only [missLocked] at he
  split at he
  · simp only [State.ent, State.dget] at he ⊢
    cases hr : s.read.get k with
    | none => rw [hr] at he; exact Or.inr (by simpa using he)
    | some e' => rw [hr] at he; exact Or.inl (by simpa using he)
  · right
    simpa [State.ent, State.dget] using he

theorem loadAndDelete_spec {s : State K V} (h : WF s) (k : K) :
    WF (loadAndDelete s k).1 ∧ (loadAndDelete s k).1.abs = s.abs.del k ∧ (loadAndDelete s k).2 = s.abs k := by
  simp only [loadAndDelete]
  cases hr : s.read.get k with
  | some e =>
    simp only
    rw [abs_read hr]
    exact deleteEntry_in h (ent_read hr)
  | none =>
    simp only
    rcases Bool.eq_false_or_eq_true s.amended with ha | ha
    rotate_left
    · have hd := dget_none h ha k
      have hab : s.abs k = none := by rw [abs_dirty hr, hd]; rfl
      rw [if_neg (by simp [ha])]
      refine ⟨h, ?_, hab.symm⟩
      funext k'
      by_cases hk : k' = k
      · subst hk; simp [M.del, hab]
      · simp [M.del, hk]
    · rw [if_pos ha]
      obtain ⟨w1, w2⟩ := wf_dirtyDel h hr ha
      have hsome : ({ s with dirty := s.dirty.map (·.del k) } : State K V).dirty.isSome = true := by
        have := h.am; rw [ha] at this; simp [← this]
      have m1 := wf_missLocked w1
      have m2 := abs_missLocked w1 hsome
      have m3 := missLocked_p ({ s with dirty := s.dirty.map (·.del k) } : State K V)
      have hdg : (s.dirty.getD []).get k = s.dget k := rfl
      simp only [hdg]
      have hent := missLocked_ent ({ s with dirty := s.dirty.map (·.del k) } : State K V)
      generalize missLocked { s with dirty := s.dirty.map (·.del k) } = s' at *
      cases hd : s.dget k with
      | none =>
        simp only
        exact ⟨m1, by rw [m2, w2], by rw [abs_dirty hr, hd]; rfl⟩
      | some e =>
        simp only
        have hpe : s.p e ≠ .expunged := h.dne k e hd
        have hout : ∀ k', s'.ent k' ≠ some e := by
          intro k' hk'
          rcases hent k' e hk' with h1 | h1
          · have := h.cross k' k e h1 hd
            subst this; rw [hr] at h1; simp at h1
          · simp only [State.dget] at h1 hd
            cases hdd : s.dirty with
            | none => rw [hdd] at hd; simp at hd
            | some d =>
              rw [hdd] at h1 hd
              simp only [Option.map_some, Option.getD_some, GMap.get_del] at h1 hd
              by_cases hk : k' = k
              · simp [hk] at h1
              · simp only [hk, if_false] at h1
                exact hk (h.dinj k' k e (by simp [State.dget, hdd, h1]) (by simp [State.dget, hdd, hd]))
        obtain ⟨d1, d2, d3⟩ := deleteEntry_out m1 hout (by rw [m3]; exact hpe)
        exact ⟨d1, by rw [d2, m2, w2], by rw [d3, m3, abs_dirty hr, hd]; rfl⟩

theorem rangeLoop_eq (p : Nat → Ptr V) (f : List (K × V) → K × V → Bool) (l : List (K × Nat)) : ∀ calls,
    rangeLoop p f calls l = callsUntil f calls (l.filterMap fun x => (p x.2).get?.map fun v => (x.1, v)) := by
  induction l with
  | nil => intro calls; rfl
  | cons x l ih =>
    obtain ⟨k, e⟩ := x
    intro calls
    simp only [rangeLoop, List.filterMap_cons]
    cases hp : p e <;> simp [Ptr.get?, ih, callsUntil]

theorem promote_spec {s : State K V} (h : WF s) : WF (promote s) ∧ (promote s).abs = s.abs ∧ (promote s).dirty = none ∧ (promote s).amended = false := by
  simp only [promote]
  rcases Bool.eq_false_or_eq_true s.amended with ha | ha
  · rw [if_pos ha]
    have hd : s.dirty.isSome = true := by rw [← h.am, ha]
    refine ⟨?_, ?_, rfl, rfl⟩
    · obtain ⟨rk, dk, am, rid, did, rinj, dinj, cross, rde, rdn, clean, dne⟩ := h
      constructor <;> simp only [State.dget, Option.getD_none, GMap.get_nil, Option.isSome_none] at * <;>
        first | assumption | grind [GMap.WF]
    · funext k
      have h1 := h.rde k
      have h2 := h.rdn k
      simp only [State.dget] at h1 h2
      simp only [State.abs, State.ent, State.dget, Option.getD_none, GMap.get_nil, Option.or_none]
      cases hr : s.read.get k with
      | none => simp
      | some e =>
        by_cases hp : s.p e = .expunged
        · rw [h1 e hd hr hp]; simp [hp, Ptr.get?]
        · rw [h2 e hd hr hp]; simp
  · rw [if_neg (by simp [ha])]
    refine ⟨h, rfl, ?_, ha⟩
    have := h.am
    rw [ha] at this
    cases hdd : s.dirty with
    | none => rfl
    | some d => rw [hdd] at this; simp at this

/-- Iteration orders are permutations. -/
def Op.Valid : Op K V → Prop
  | .range _ order => ∀ m, (order m).Perm m
  | _ => True

theorem range_spec {s : State K V} (h : WF s) (f : List (K × V) → K × V → Bool) (order : GMap K Nat → List (K × Nat)) (ho : ∀ m, (order m).Perm m) :
    WF (range s f order).1 ∧ (range s f order).1.abs = s.abs ∧
    ∃ l : List (K × V), (l.map (·.1)).Nodup ∧ (∀ k v, (k, v) ∈ l ↔ s.abs k = some v) ∧ (range s f order).2 = callsUntil f [] l := by
  obtain ⟨h1, h2, h3, h4⟩ := promote_spec h
  refine ⟨h1, h2, (order (promote s).read).filterMap (fun x => ((promote s).p x.2).get?.map fun v => (x.1, v)), ?_, ?_, ?_⟩
  · have hn : ((order (promote s).read).map (·.1)).Nodup := GMap.wf_perm h1.rk (ho _)
    refine hn.sublist ?_
    generalize order (promote s).read = l
    induction l with
    | nil => simp
    | cons x l ih =>
      simp only [List.filterMap_cons, List.map_cons]
      cases ((promote s).p x.2).get? with
      | none => exact ih.cons _
      | some v => exact ih.cons₂ _
  · intro k v
    rw [← h2]
    simp only [List.mem_filterMap, Option.map_eq_some_iff, Prod.mk.injEq, Prod.exists]
    have hab : (promote s).abs k = ((promote s).read.get k).bind fun e => ((promote s).p e).get? := by
      simp [State.abs, State.ent, State.dget, h3]
    rw [hab]
    constructor
    · rintro ⟨k', e, hm, w, hw, rfl, rfl⟩
      rw [GMap.get_of_mem h1.rk ((ho _).mem_iff.1 hm)]
      exact hw
    · intro he
      cases hg : (promote s).read.get k with
      | none => rw [hg] at he; simp at he
      | some e => rw [hg] at he; exact ⟨k, e, (ho _).mem_iff.2 (GMap.mem_of_get hg), v, he, rfl, rfl⟩
  · exact rangeLoop_eq _ _ _ _

/-- One operation refines the ordinary map. -/
theorem exec_spec {s : State K V} (h : WF s) (op : Op K V) (hv : op.Valid) :
    ∃ s' r, exec s op = some (s', r) ∧ WF s' ∧ Does s.abs op s'.abs r := by
  cases op with
  | load k =>
    simp only [exec, load]
    cases hr : s.read.get k with
    | some e =>
      simp only
      refine ⟨_, _, rfl, h, ?_⟩
      have := Does.load s.abs k
      rwa [abs_read hr] at this
    | none =>
      simp only
      rcases Bool.eq_false_or_eq_true s.amended with ha | ha
      · rw [if_pos ha]
        have hsome : s.dirty.isSome = true := by rw [← h.am, ha]
        have m1 := wf_missLocked h
        have m2 := abs_missLocked h hsome
        have m3 := missLocked_p s
        have hL := Does.load s.abs k
        rw [abs_dirty hr] at hL
        have hdg : (s.dirty.getD []).get k = s.dget k := rfl
        simp only [hdg]
        cases hd : s.dget k with
        | some e => rw [hd] at hL; exact ⟨_, _, rfl, m1, by simp only [m2, m3]; exact hL⟩
        | none => rw [hd] at hL; exact ⟨_, _, rfl, m1, by simp only [m2]; exact hL⟩
      · rw [if_neg (by simp [ha])]
        have hL := Does.load s.abs k
        rw [abs_dirty hr, dget_none h ha] at hL
        exact ⟨_, _, rfl, h, hL⟩
  | store k v =>
    simp only [exec, store]
    have hS := Does.store s.abs k v
    cases hr : s.read.get k with
    | some e =>
      simp only
      by_cases hp : s.p e = .expunged
      · obtain ⟨s', e1, e2, e3, e4, e5, e6⟩ := unexpunge_spec h hr hp
        simp only [hp, if_true, e1]
        refine ⟨_, _, rfl, wf_setP e2 e _ (by simp) (by simp [e5]), ?_⟩
        rw [abs_set_val e2 v e6, e3]; exact hS
      · have : (match s.p e with | .expunged => true | _ => false) = false := by
          cases hpe : s.p e <;> simp_all
        refine ⟨s.setP e (.val v), .unit, ?_, wf_setP h e _ (by simp) hp, by rw [abs_set_val h v (ent_read hr)]; exact hS⟩
        cases hpe : s.p e <;> simp_all
    | none =>
      have hdg : (s.dirty.getD []).get k = s.dget k := rfl
      simp only [hdg]
      cases hd : s.dget k with
      | some e =>
        have hent : s.ent k = some e := by rw [ent_dirty hr, hd]
        exact ⟨_, _, rfl, wf_setP h e _ (by simp) (h.dne k e hd), by rw [abs_set_val h v hent]; exact hS⟩
      | none =>
        have hent : s.ent k = none := by rw [ent_dirty hr, hd]
        obtain ⟨s', e1, e2, e3⟩ := addNew_amend h hent v
        simp only [e1]
        exact ⟨_, _, rfl, e2, by rw [e3]; exact hS⟩
  | loadOrStore k v =>
    simp only [exec, loadOrStore]
    cases hr : s.read.get k with
    | some e =>
      have hab := abs_read (s := s) hr
      cases hp : s.p e with
      | val w =>
        simp only [tryLoadOrStore, hp]
        exact ⟨_, _, rfl, h, .loadOrStore_found _ _ _ _ (by rw [hab, hp]; rfl)⟩
      | nil =>
        simp only [tryLoadOrStore, hp]
        refine ⟨_, _, rfl, wf_setP h e _ (by simp) (by simp [hp]), ?_⟩
        rw [abs_set_val h v (ent_read hr)]
        exact .loadOrStore_absent _ _ _ (by rw [hab, hp]; rfl)
      | expunged =>
        obtain ⟨s', e1, e2, e3, e4, e5, e6⟩ := unexpunge_spec h hr hp
        simp only [tryLoadOrStore, hp, e1, Option.bind_eq_bind, Option.bind_some, Option.pure_def, e5]
        refine ⟨_, _, rfl, wf_setP e2 e _ (by simp) (by simp [e5]), ?_⟩
        rw [abs_set_val e2 v e6, e3]
        exact .loadOrStore_absent _ _ _ (by rw [hab, hp]; rfl)
    | none =>
      have hdg : (s.dirty.getD []).get k = s.dget k := rfl
      simp only [hdg]
      have hab := abs_dirty (s := s) hr
      cases hd : s.dget k with
      | some e =>
        have hsome := (dget_amended h hd).2
        have hent : s.ent k = some e := by rw [ent_dirty hr, hd]
        rw [hd] at hab
        simp only [Option.bind_some] at hab
        cases hp : s.p e with
        | val w =>
          simp only [tryLoadOrStore, hp]
          exact ⟨_, _, rfl, wf_missLocked h, by rw [abs_missLocked h hsome]; exact .loadOrStore_found _ _ _ _ (by rw [hab, hp]; rfl)⟩
        | nil =>
          simp only [tryLoadOrStore, hp]
          have hw := wf_setP h e (.val v) (by simp) (by simp [hp])
          refine ⟨_, _, rfl, wf_missLocked hw, ?_⟩
          rw [abs_missLocked hw hsome, abs_set_val h v hent]
          exact .loadOrStore_absent _ _ _ (by rw [hab, hp]; rfl)
        | expunged => exact absurd hp (h.dne k e hd)
      | none =>
        have hent : s.ent k = none := by rw [ent_dirty hr, hd]
        obtain ⟨s', e1, e2, e3⟩ := addNew_amend h hent v
        simp only [e1]
        refine ⟨_, _, rfl, e2, ?_⟩
        rw [e3]
        exact .loadOrStore_absent _ _ _ (by rw [hab, hd]; rfl)
  | computeIfAbsent k f =>
    simp only [exec, computeIfAbsent]
    cases hr : s.read.get k with
    | some e =>
      have hab := abs_read (s := s) hr
      cases hp : s.p e with
      | val w =>
        simp only [tryComputeIfAbsent, hp]
        exact ⟨_, _, rfl, h, .computeIfAbsent_found _ _ _ _ (by rw [hab, hp]; rfl)⟩
      | nil =>
        simp only [tryComputeIfAbsent, hp]
        refine ⟨_, _, rfl, wf_setP h e _ (by simp) (by simp [hp]), ?_⟩
        rw [abs_set_val h _ (ent_read hr)]
        exact .computeIfAbsent_absent _ _ _ (by rw [hab, hp]; rfl)
      | expunged =>
        obtain ⟨s', e1, e2, e3, e4, e5, e6⟩ := unexpunge_spec h hr hp
        simp only [tryComputeIfAbsent, hp, e1, Option.bind_eq_bind, Option.bind_some, Option.pure_def, e5]
        refine ⟨_, _, rfl, wf_setP e2 e _ (by simp) (by simp [e5]), ?_⟩
        rw [abs_set_val e2 _ e6, e3]
        exact .computeIfAbsent_absent _ _ _ (by rw [hab, hp]; rfl)
    | none =>
      have hdg : (s.dirty.getD []).get k = s.dget k := rfl
      simp only [hdg]
      have hab := abs_dirty (s := s) hr
      cases hd : s.dget k with
      | some e =>
        have hsome := (dget_amended h hd).2
        have hent : s.ent k = some e := by rw [ent_dirty hr, hd]
        rw [hd] at hab
        simp only [Option.bind_some] at hab
        cases hp : s.p e with
        | val w =>
          simp only [tryComputeIfAbsent, hp]
          exact ⟨_, _, rfl, wf_missLocked h, by rw [abs_missLocked h hsome]; exact .computeIfAbsent_found _ _ _ _ (by rw [hab, hp]; rfl)⟩
        | nil =>
          simp only [tryComputeIfAbsent, hp]
          have hw := wf_setP h e (.val (f k)) (by simp) (by simp [hp])
          refine ⟨_, _, rfl, wf_missLocked hw, ?_⟩
          rw [abs_missLocked hw hsome, abs_set_val h _ hent]
          exact .computeIfAbsent_absent _ _ _ (by rw [hab, hp]; rfl)
        | expunged => exact absurd hp (h.dne k e hd)
      | none =>
        have hent : s.ent k = none := by rw [ent_dirty hr, hd]
        obtain ⟨s', e1, e2, e3⟩ := addNew_amend h hent (f k)
        simp only [e1]
        refine ⟨_, _, rfl, e2, ?_⟩
        rw [e3]
        exact .computeIfAbsent_absent _ _ _ (by rw [hab, hd]; rfl)
  | computeIfPresent k f =>
    simp only [exec, computeIfPresent]
    cases hr : s.read.get k with
    | some e =>
      have hab := abs_read (s := s) hr
      cases hp : s.p e with
      | val w =>
        simp only [tryComputeIfPresent, hp]
        refine ⟨_, _, rfl, wf_setP h e _ (by simp) (by simp [hp]), ?_⟩
        rw [abs_set_val h _ (ent_read hr)]
        exact .computeIfPresent_found _ _ _ _ (by rw [hab, hp]; rfl)
      | nil =>
        simp only [tryComputeIfPresent, hp]
        exact ⟨_, _, rfl, h, .computeIfPresent_absent _ _ _ (by rw [hab, hp]; rfl)⟩
      | expunged =>
        obtain ⟨s', e1, e2, e3, e4, e5, e6⟩ := unexpunge_spec h hr hp
        simp only [tryComputeIfPresent, hp, e1, Option.bind_eq_bind, Option.bind_some, Option.pure_def, e5]
        refine ⟨_, _, rfl, e2, ?_⟩
        rw [e3]
        exact .computeIfPresent_absent _ _ _ (by rw [hab, hp]; rfl)
    | none =>
      have hdg : (s.dirty.getD []).get k = s.dget k := rfl
      simp only [hdg]
      have hab := abs_dirty (s := s) hr
      cases hd : s.dget k with
      | some e =>
        have hsome := (dget_amended h hd).2
        have hent : s.ent k = some e := by rw [ent_dirty hr, hd]
        rw [hd] at hab
        simp only [Option.bind_some] at hab
        cases hp : s.p e with
        | val w =>
          simp only [tryComputeIfPresent, hp]
          have hw := wf_setP h e (.val (f k w)) (by simp) (by simp [hp])
          refine ⟨_, _, rfl, wf_missLocked hw, ?_⟩
          rw [abs_missLocked hw hsome, abs_set_val h _ hent]
          exact .computeIfPresent_found _ _ _ _ (by rw [hab, hp]; rfl)
        | nil =>
          simp only [tryComputeIfPresent, hp]
          exact ⟨_, _, rfl, wf_missLocked h, by rw [abs_missLocked h hsome]; exact .computeIfPresent_absent _ _ _ (by rw [hab, hp]; rfl)⟩
        | expunged => exact absurd hp (h.dne k e hd)
      | none => exact ⟨_, _, rfl, h, .computeIfPresent_absent _ _ _ (by rw [hab, hd]; rfl)⟩
  | loadAndDelete k =>
    obtain ⟨h1, h2, h3⟩ := loadAndDelete_spec h k
    refine ⟨(loadAndDelete s k).1, .value (loadAndDelete s k).2, rfl, h1, ?_⟩
    rw [h2, h3]
    exact .loadAndDelete _ _
  | delete k =>
    obtain ⟨h1, h2, _⟩ := loadAndDelete_spec h k
    refine ⟨_, _, rfl, h1, ?_⟩
    rw [delete, h2]
    exact .delete _ _
  | clear =>
    refine ⟨_, _, rfl, ?_, ?_⟩
    · constructor <;> simp [clear, State.dget, GMap.WF]
    · have : (clear s).abs = fun _ => none := by funext k; simp [State.abs, State.ent, State.dget, clear]
      rw [this]; exact .clear _
  | range f order =>
    obtain ⟨h1, h2, l, h3, h4, h5⟩ := range_spec h f order hv
    refine ⟨(range s f order).1, .visited (range s f order).2, rfl, h1, ?_⟩
    rw [h2, h5]
    exact .range _ _ _ l h3 h4

theorem execAll_spec (ops : List (Op K V)) : ∀ s : State K V, WF s → (∀ op ∈ ops, op.Valid) →
    ∃ s' rs, execAll s ops = some (s', rs) ∧ WF s' ∧ DoesAll s.abs ops s'.abs rs := by
  induction ops with
  | nil => intro s h _; exact ⟨s, [], rfl, h, .nil _⟩
  | cons op ops ih =>
    intro s h hv
    obtain ⟨s', r, e1, e2, e3⟩ := exec_spec h op (hv op (by simp))
    obtain ⟨s'', rs, f1, f2, f3⟩ := ih s' e2 (fun op ho => hv op (by simp [ho]))
    exact ⟨s'', r :: rs, by simp [execAll, e1, f1], f2, .cons e3 f3⟩

/-- C18, C19, C20: any sequence of operations on a zero `Map` runs without panic and returns, call by call, what an ordinary
map returns; `Does` includes the calls of user functions. -/
theorem C18_ordinary_map (ops : List (Op K V)) (hv : ∀ op ∈ ops, op.Valid) :
    ∃ s rs, execAll State.zero ops = some (s, rs) ∧ ∃ c : M K V, DoesAll (fun _ => none) ops c rs := by
  obtain ⟨s, rs, h1, _, h3⟩ := execAll_spec ops State.zero wf_zero hv
  exact ⟨s, rs, h1, s.abs, h3⟩

/-- A history through promotion, expunging and unexpunging: two stores, a miss that promotes, a delete, a store of a new key that
expunges the deleted entry, and a store that revives it. -/
example : (execAll (State.zero : State Nat Nat) [.store 1 10, .store 2 20, .load 1, .load 2, .delete 1, .store 3 30, .load 1, .store 1 11,
    .computeIfPresent 1 (fun _ w => w + 1), .computeIfAbsent 4 (fun _ => 40), .load 1]).map (·.2) =
    some [.unit, .unit, .value (some 10), .value (some 20), .unit, .unit, .value none, .unit, .present (some 12) [(1, 11)], .loaded 40 false [4],
      .value (some 12)] := rfl

/-- In that history the entry of key 1 is expunged at one point. -/
example : (execAll (State.zero : State Nat Nat) [.store 1 10, .store 2 20, .load 1, .load 2, .delete 1, .store 3 30]).map
    (fun x => (x.1.p 0, x.1.read.get 1)) = some (.expunged, some 0) := rfl

theorem doesAll_append {s t : M K V} {ops : List (Op K V)} {op : Op K V} {rs : List (Res K V)} {r : Res K V}
    (h : DoesAll s (ops ++ [op]) t (rs ++ [r])) (hl : ops.length = rs.length) : ∃ c, DoesAll s ops c rs ∧ Does c op t r := by
  induction ops generalizing s rs with
  | nil =>
    cases rs with
    | nil =>
      simp only [List.nil_append] at h
      cases h with
      | cons h t => cases t; exact ⟨s, .nil _, h⟩
    | cons _ _ => simp at hl
  | cons o ops ih =>
    cases rs with
    | nil => simp at hl
    | cons q rs =>
      simp only [List.cons_append] at h
      cases h with
      | cons h1 t =>
        obtain ⟨c, hc, hd⟩ := ih t (by simpa using hl)
        exact ⟨c, .cons h1 hc, hd⟩

/-- The contents of an ordinary map do not depend on the iteration orders: they are determined by the operations. -/
def contents (s : M K V) : List (Op K V) → M K V
  | [] => s
  | op :: ops => contents (match op with
    | .store k v => s.set k v
    | .loadOrStore k v => if (s k).isSome then s else s.set k v
    | .computeIfAbsent k f => if (s k).isSome then s else s.set k (f k)
    | .computeIfPresent k f => match s k with | some w => s.set k (f k w) | none => s
    | .loadAndDelete k | .delete k => s.del k
    | .clear => fun _ => none
    | .load _ | .range _ _ => s) ops

theorem doesAll_contents {s t : M K V} {ops : List (Op K V)} {rs : List (Res K V)} (h : DoesAll s ops t rs) : t = contents s ops := by
  induction h with
  | nil s => rfl
  | cons h _ ih =>
    rw [ih]
    cases h <;> simp_all [contents]

theorem last_spec (ops : List (Op K V)) (op : Op K V) (hv : ∀ o ∈ ops ++ [op], o.Valid) {s : State K V} {rs : List (Res K V)} {r : Res K V}
    (he : execAll State.zero (ops ++ [op]) = some (s, rs ++ [r])) (hl : ops.length = rs.length) :
    Does (contents (fun _ => none) ops) op (contents (fun _ => none) (ops ++ [op])) r := by
  obtain ⟨s', rs', h1, _, h3⟩ := execAll_spec (ops ++ [op]) State.zero wf_zero hv
  rw [he] at h1
  simp only [Option.some.injEq, Prod.mk.injEq] at h1
  obtain ⟨rfl, rfl⟩ := h1
  have hz : (State.zero : State K V).abs = fun _ => none := by funext k; simp [State.abs, State.ent, State.dget, State.zero]
  rw [hz] at h3
  obtain ⟨c, h4, h5⟩ := doesAll_append h3 hl
  rw [doesAll_contents h4, doesAll_contents h3] at h5
  exact h5

/-- C19: after any history, `Range` calls its function once per present key with its current value, in some order, up to and
including the first call that returns false, and leaves the contents unchanged. -/
theorem C19_range (ops : List (Op K V)) (f : List (K × V) → K × V → Bool) (order : GMap K Nat → List (K × Nat))
    (hv : ∀ o ∈ ops ++ [.range f order], o.Valid) {s : State K V} {rs : List (Res K V)} {r : Res K V}
    (he : execAll State.zero (ops ++ [.range f order]) = some (s, rs ++ [r])) (hl : ops.length = rs.length) :
    contents (fun _ => none) (ops ++ [.range f order]) = contents (fun _ => none) ops ∧
    ∃ l : List (K × V), (l.map (·.1)).Nodup ∧ (∀ k v, (k, v) ∈ l ↔ contents (fun _ => none) ops k = some v) ∧ r = .visited (callsUntil f [] l) := by
  have h := last_spec ops _ hv he hl
  generalize contents (fun _ => none) (ops ++ [.range f order]) = t at h ⊢
  generalize contents (fun _ => none) ops = c at h ⊢
  cases h with
  | range _ _ l h1 h2 => exact ⟨rfl, l, h1, h2, rfl⟩

/-- Three keys, one of them deleted; the function returns false at its second call. -/
example : (execAll (State.zero : State Nat Nat) [.store 1 10, .store 2 20, .store 3 30, .delete 2, .range (fun pre _ => pre.length = 0) id]).map (·.2) =
    some [.unit, .unit, .unit, .unit, .visited [(3, 30), (1, 10)]] := rfl

/-- C20: after any history, `ComputeIfAbsent` calls its function exactly once if the key is absent and not at all otherwise. -/
theorem C20_absent (ops : List (Op K V)) (k : K) (f : K → V) (hv : ∀ o ∈ ops ++ [.computeIfAbsent k f], o.Valid) {s : State K V}
    {rs : List (Res K V)} {r : Res K V} (he : execAll State.zero (ops ++ [.computeIfAbsent k f]) = some (s, rs ++ [r])) (hl : ops.length = rs.length) :
    match contents (fun _ => none) ops k with
    | none => r = .loaded (f k) false [k]
    | some w => r = .loaded w true [] := by
  have h := last_spec ops _ hv he hl
  generalize contents (fun _ => none) (ops ++ [.computeIfAbsent k f]) = t at h
  generalize contents (fun _ => none) ops = c at h ⊢
  cases h with
  | computeIfAbsent_found _ _ w h => simp [h]
  | computeIfAbsent_absent _ _ h => simp [h]

/-- The function is called for the deleted key 1 and not for the key 2. -/
example : (execAll (State.zero : State Nat Nat) [.store 1 10, .store 2 20, .delete 1, .computeIfAbsent 1 (fun k => k + 1), .computeIfAbsent 2 (fun k => k + 1)]).map (·.2) =
    some [.unit, .unit, .unit, .loaded 2 false [1], .loaded 20 true []] := rfl

/-- C20: after any history, `ComputeIfPresent` calls its function exactly once, with the current value, if the key is present and not
at all otherwise. -/
theorem C20_present (ops : List (Op K V)) (k : K) (f : K → V → V) (hv : ∀ o ∈ ops ++ [.computeIfPresent k f], o.Valid) {s : State K V}
    {rs : List (Res K V)} {r : Res K V} (he : execAll State.zero (ops ++ [.computeIfPresent k f]) = some (s, rs ++ [r])) (hl : ops.length = rs.length) :
    match contents (fun _ => none) ops k with
    | none => r = .present none []
    | some w => r = .present (some (f k w)) [(k, w)] := by
  have h := last_spec ops _ hv he hl
  generalize contents (fun _ => none) (ops ++ [.computeIfPresent k f]) = t at h
  generalize contents (fun _ => none) ops = c at h ⊢
  cases h with
  | computeIfPresent_found _ _ w h => simp [h]
  | computeIfPresent_absent _ _ h => simp [h]

/-- The function is called for the key 2 and not for the deleted key 1. -/
example : (execAll (State.zero : State Nat Nat) [.store 1 10, .store 2 20, .delete 1, .computeIfPresent 1 (fun k w => k + w), .computeIfPresent 2 (fun k w => k + w)]).map (·.2) =
    some [.unit, .unit, .unit, .present none [], .present (some 22) [(2, 20)]] := rfl

end Verif.XSync.Map

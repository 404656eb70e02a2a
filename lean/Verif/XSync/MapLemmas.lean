import Verif.XSync.MapSpec
/-! # Invariant and refinement of the sequential `xsync.Map` -/
namespace Verif.XSync.Map
open Verif.Go

variable {K V : Type} [DecidableEq K]

/-- `dirty[k]` -/
def State.dget (s : State K V) (k : K) : Option Nat := (s.dirty.getD []).get k

/-- The pointer of the entry is nil (map.go:73-89). -/
def Ptr.isNil : Ptr V → Bool
  | .nil => true
  | _ => false

/-- Proof only: part of an invariant or simulation; models no code. -/
structure WF (s : State K V) : Prop where
  rk : GMap.WF s.read
  dk : GMap.WF (s.dirty.getD [])
  am : s.amended = s.dirty.isSome
  rid : ∀ k e, s.read.get k = some e → e < s.next
  did : ∀ k e, s.dget k = some e → e < s.next
  rinj : ∀ k k' e, s.read.get k = some e → s.read.get k' = some e → k = k'
  dinj : ∀ k k' e, s.dget k = some e → s.dget k' = some e → k = k'
  cross : ∀ k k' e, s.read.get k = some e → s.dget k' = some e → k = k'
  rde : ∀ k e, s.dirty.isSome = true → s.read.get k = some e → s.p e = .expunged → s.dget k = none
  rdn : ∀ k e, s.dirty.isSome = true → s.read.get k = some e → s.p e ≠ .expunged → s.dget k = some e
  clean : ∀ k e, s.dirty.isSome = false → s.read.get k = some e → s.p e ≠ .expunged
  dne : ∀ k e, s.dget k = some e → s.p e ≠ .expunged

/-- The entry of a key. -/
def State.ent (s : State K V) (k : K) : Option Nat := (s.read.get k).or (s.dget k)

/-- The contents of the map. -/
def State.abs (s : State K V) : M K V := fun k => (s.ent k).bind fun e => (s.p e).get?

theorem wf_zero : WF (State.zero : State K V) := by
  constructor <;> simp [State.zero, State.dget, GMap.WF]

theorem ent_inj {s : State K V} (h : WF s) {k k' : K} {e : Nat} (h1 : s.ent k = some e) (h2 : s.ent k' = some e) : k = k' := by
  obtain ⟨rk, dk, am, rid, did, rinj, dinj, cross, rde, rdn, clean, dne⟩ := h
  simp only [State.ent] at h1 h2
  cases hr : s.read.get k <;> cases hr' : s.read.get k' <;> simp only [hr, hr', Option.none_or, Option.some_or] at h1 h2
  · exact dinj k k' e h1 h2
  · exact (cross k' k e (by rw [hr', h2]) h1).symm
  · exact cross k k' e (by rw [hr, h1]) h2
  · exact rinj k k' e (by rw [hr, h1]) (by rw [hr', h2])

/-- Writing a value or nil to an entry that is not expunged. -/
theorem wf_setP {s : State K V} (h : WF s) (e : Nat) (x : Ptr V) (hx : x ≠ .expunged) (he : s.p e ≠ .expunged) : WF (s.setP e x) := by
  obtain ⟨rk, dk, am, rid, did, rinj, dinj, cross, rde, rdn, clean, dne⟩ := h
  constructor <;> simp only [State.setP, State.dget] at * <;> first | assumption | grind

theorem abs_setP {s : State K V} (h : WF s) {k : K} {e : Nat} (x : Ptr V) (hk : s.ent k = some e) :
    (s.setP e x).abs = fun k' => if k' = k then x.get? else s.abs k' := by
  funext k'
  have hent : (s.setP e x).ent k' = s.ent k' := rfl
  simp only [State.abs, hent]
  by_cases hkk : k' = k
  · subst hkk; simp [hk, State.setP]
  · simp only [hkk, if_false]
    cases he : s.ent k' with
    | none => rfl
    | some e' =>
      have : e' ≠ e := by rintro rfl; exact hkk (ent_inj h he hk)
      simp [State.setP, this]

theorem wf_missLocked {s : State K V} (h : WF s) : WF (missLocked s) := by
  obtain ⟨rk, dk, am, rid, did, rinj, dinj, cross, rde, rdn, clean, dne⟩ := h
  simp only [missLocked]
  split
  · constructor <;> simp only [State.dget] at * <;> assumption
  · constructor <;> simp only [State.dget, Option.getD_none, GMap.get_nil, Option.isSome_none] at * <;>
      first | assumption | grind [GMap.WF]

theorem missLocked_p (s : State K V) : (missLocked s).p = s.p := by
  simp only [missLocked]; split <;> rfl

theorem abs_missLocked {s : State K V} (h : WF s) (hd : s.dirty.isSome = true) : (missLocked s).abs = s.abs := by
  funext k
  have hp := missLocked_p s
  simp only [State.abs, hp]
  simp only [missLocked]
  split
  · rfl
  · simp only [State.ent, State.dget, Option.getD_none, GMap.get_nil, Option.or_none]
    have h1 := h.rde k
    have h2 := h.rdn k
    simp only [State.dget] at h1 h2
    cases hr : s.read.get k with
    | none => simp
    | some e =>
      by_cases hp : s.p e = .expunged
      · rw [h1 e hd hr hp]; simp [hp, Ptr.get?]
      · rw [h2 e hd hr hp]; simp

theorem dirtyLoop_spec (l : List (K × Nat)) : ∀ (s : State K V) (d : GMap K Nat), (l.map (·.1)).Nodup → GMap.WF d → (∀ x ∈ l, d.get x.1 = none) →
    (∀ x ∈ l, ∀ y ∈ l, x.2 = y.2 → x = y) →
    (dirtyLoop s d l).1.read = s.read ∧ (dirtyLoop s d l).1.amended = s.amended ∧ (dirtyLoop s d l).1.dirty = s.dirty ∧
    (dirtyLoop s d l).1.next = s.next ∧ (∀ e, (dirtyLoop s d l).1.p e = if e ∈ l.map (fun x => x.2) ∧ (s.p e).isNil = true then .expunged else s.p e) ∧
    GMap.WF (dirtyLoop s d l).2 ∧
    ∀ k, (dirtyLoop s d l).2.get k = (match GMap.get l k with | some e => (if (s.p e).get?.isSome then some e else d.get k) | none => d.get k) := by
  induction l with
  | nil => intro s d _ hd _ _; exact ⟨rfl, rfl, rfl, rfl, by intro e; simp [dirtyLoop], hd, by intro k; simp [dirtyLoop]⟩
  | cons x l ih =>
    obtain ⟨k, e⟩ := x
    intro s d hn hd habs hinj
    simp only [List.map_cons, List.nodup_cons] at hn
    have hinj' : ∀ x ∈ l, ∀ y ∈ l, x.2 = y.2 → x = y := fun x hx y hy => hinj x (by simp [hx]) y (by simp [hy])
    have hne : ∀ x ∈ l, x.1 ≠ k := fun x hx hk => hn.1 (List.mem_map.2 ⟨x, hx, hk⟩)
    have hne2 : ∀ x ∈ l, x.2 ≠ e := by
      intro x hx he
      have := hinj x (by simp [hx]) (k, e) (by simp) he
      exact hne x hx (by rw [this])
    have hgk : GMap.get l k = none := by
      cases hg : GMap.get l k with
      | none => rfl
      | some a => exact absurd rfl (hne _ (GMap.mem_of_get hg))
    cases hp : s.p e with
    | val v =>
      have hstep : dirtyLoop s d ((k, e) :: l) = dirtyLoop s (d.set k e) l := by simp [dirtyLoop, tryExpungeLocked, hp]
      rw [hstep]
      obtain ⟨h1, h2, h3, h4, h5, h6, h7⟩ := ih s (d.set k e) hn.2 (GMap.wf_set hd k e)
        (fun x hx => by rw [GMap.get_set]; simp [hne x hx, habs x (by simp [hx])]) hinj'
      refine ⟨h1, h2, h3, h4, ?_, h6, ?_⟩
      · intro e'
        rw [h5]
        by_cases hee : e' = e
        · subst hee; simp [hp, Ptr.isNil]
        · simp only [List.map_cons, List.mem_cons, hee, false_or]
      · intro k'
        rw [h7, GMap.get]
        by_cases hkk : k = k'
        · subst hkk; simp [hgk, GMap.get_set, hp, Ptr.get?]
        · simp only [hkk, if_false, GMap.get_set, Ne.symm hkk]
    | nil =>
      have hstep : dirtyLoop s d ((k, e) :: l) = dirtyLoop (s.setP e .expunged) d l := by simp [dirtyLoop, tryExpungeLocked, hp]
      rw [hstep]
      obtain ⟨h1, h2, h3, h4, h5, h6, h7⟩ := ih (s.setP e .expunged) d hn.2 hd (fun x hx => habs x (by simp [hx])) hinj'
      refine ⟨h1, h2, h3, h4, ?_, h6, ?_⟩
      · intro e'
        rw [h5]
        by_cases hee : e' = e
        · subst hee; simp [hp, State.setP, Ptr.isNil]
        · simp only [List.map_cons, List.mem_cons, hee, false_or, State.setP, if_false]
      · intro k'
        rw [h7, GMap.get]
        by_cases hkk : k = k'
        · subst hkk; simp [hgk, hp, Ptr.get?]
        · simp only [hkk, if_false]
          cases hg : GMap.get l k' with
          | none => rfl
          | some e' => simp [State.setP, hne2 _ (GMap.mem_of_get hg)]
    | expunged =>
      have hstep : dirtyLoop s d ((k, e) :: l) = dirtyLoop s d l := by simp [dirtyLoop, tryExpungeLocked, hp]
      rw [hstep]
      obtain ⟨h1, h2, h3, h4, h5, h6, h7⟩ := ih s d hn.2 hd (fun x hx => habs x (by simp [hx])) hinj'
      refine ⟨h1, h2, h3, h4, ?_, h6, ?_⟩
      · intro e'
        rw [h5]
        by_cases hee : e' = e
        · subst hee; simp [hp, Ptr.isNil]
        · simp only [List.map_cons, List.mem_cons, hee, false_or]
      · intro k'
        rw [h7, GMap.get]
        by_cases hkk : k = k'
        · subst hkk; simp [hgk, hp, Ptr.get?]
        · simp only [hkk, if_false]

theorem amend_spec {s : State K V} (h : WF s) : WF (amend s) ∧ (amend s).abs = s.abs ∧ (amend s).dirty.isSome = true ∧ (amend s).read = s.read ∧
    ∀ k, s.ent k = none → (amend s).dget k = none := by
  simp only [amend]
  cases ha : s.amended with
  | true =>
    simp only [if_true]
    refine ⟨h, trivial, by rw [← h.am, ha], trivial, ?_⟩
    intro k hk; simp only [State.ent] at hk; cases hr : s.read.get k <;> simp_all
  | false =>
    have hd : s.dirty = none := by
      have := h.am
      rw [ha] at this
      cases hd : s.dirty with
      | none => rfl
      | some d => rw [hd] at this; simp at this
    simp only [Bool.false_eq_true, if_false, dirtyLocked, hd]
    have hinj : ∀ x ∈ s.read, ∀ y ∈ s.read, x.2 = y.2 → x = y := by
      rintro ⟨k, e⟩ hx ⟨k', e'⟩ hy rfl
      have := h.rinj k k' e (GMap.get_of_mem h.rk hx) (GMap.get_of_mem h.rk hy)
      rw [this]
    obtain ⟨h1, h2, h3, h4, h5, h6, h7⟩ := dirtyLoop_spec s.read s [] h.rk GMap.wf_nil (by simp) hinj
    generalize hL : dirtyLoop s [] s.read = L at *
    obtain ⟨s', d⟩ := L
    simp only at h1 h2 h3 h4 h5 h6 h7 ⊢
    have hmem : ∀ k e, s.read.get k = some e → e ∈ s.read.map (·.2) := fun k e hg => List.mem_map.2 ⟨_, GMap.mem_of_get hg, rfl⟩
    have hcl : ∀ k e, s.read.get k = some e → s.p e ≠ .expunged := fun k e => h.clean k e (by simp [hd])
    have hdget : ∀ k e, d.get k = some e ↔ s.read.get k = some e ∧ ∃ v, s.p e = .val v := by
      intro k e
      rw [h7]
      cases hg : s.read.get k with
      | none => simp
      | some e' =>
        cases hp : s.p e' with
        | nil =>
          simp only [hp, Ptr.get?, Option.isSome_none, Bool.false_eq_true, if_false, GMap.get_nil, reduceCtorEq, Option.some.injEq, false_iff, not_and, not_exists]
          rintro rfl; simp [hp]
        | expunged =>
          simp only [hp, Ptr.get?, Option.isSome_none, Bool.false_eq_true, if_false, GMap.get_nil, reduceCtorEq, Option.some.injEq, false_iff, not_and, not_exists]
          rintro rfl; simp [hp]
        | val v =>
          simp only [hp, Ptr.get?, Option.isSome_some, if_true, Option.some.injEq]
          constructor
          · rintro rfl; exact ⟨rfl, _, hp⟩
          · exact fun h => h.1
    refine ⟨?_, ?_, rfl, h1, ?_⟩
    · obtain ⟨rk, dk, am, rid, did, rinj, dinj, cross, rde, rdn, clean, dne⟩ := h
      constructor <;> simp only [State.dget, Option.getD_some, Option.isSome_some, h1, h4] at *
      · exact rk
      · exact h6
      · exact rid
      · intro k e hk; exact rid k e ((hdget k e).1 hk).1
      · exact rinj
      · intro k k' e hk hk'; exact rinj k k' e ((hdget k e).1 hk).1 ((hdget k' e).1 hk').1
      · intro k k' e hk hk'; exact rinj k k' e hk ((hdget k' e).1 hk').1
      · intro k e _ hk hp
        cases hg : d.get k with
        | none => rfl
        | some e' =>
          obtain ⟨ha, v, hv⟩ := (hdget k e').1 hg
          rw [hk] at ha; simp only [Option.some.injEq] at ha; subst ha
          rw [h5] at hp; simp [hv, Ptr.isNil] at hp
      · intro k e _ hk hp
        rw [hdget]
        refine ⟨hk, ?_⟩
        have hc := hcl k e hk
        rw [h5] at hp
        have := hmem k e hk
        cases hv : s.p e with
        | nil => simp [hv, Ptr.isNil, this] at hp
        | expunged => exact absurd hv hc
        | val v => exact ⟨v, rfl⟩
      · intro k e hh; simp at hh
      · intro k e hk
        obtain ⟨ha, v, hv⟩ := (hdget k e).1 hk
        rw [h5]; simp [hv, Ptr.isNil]
    · funext k
      simp only [State.abs, State.ent, State.dget, Option.getD_some, hd, Option.getD_none, GMap.get_nil, Option.or_none, h1]
      cases hg : s.read.get k with
      | none =>
        have : d.get k = none := by
          cases hdg : d.get k with
          | none => rfl
          | some e => have := ((hdget k e).1 hdg).1; rw [hg] at this; simp at this
        simp [this]
      | some e =>
        simp only [Option.some_or, Option.bind_some, h5]
        cases hp : s.p e <;> simp [hmem k e hg, Ptr.get?, Ptr.isNil]
    · intro k hk
      simp only [State.ent, State.dget, hd, Option.getD_none, GMap.get_nil, Option.or_none] at hk
      simp only [State.dget, Option.getD_some]
      cases hdg : d.get k with
      | none => rfl
      | some e => have := ((hdget k e).1 hdg).1; rw [hk] at this; simp at this

theorem addNew_spec {s : State K V} (h : WF s) (hd : s.dirty.isSome = true) (k : K) (v : V) (hr : s.read.get k = none) :
    ∃ s', addNew s k v = some s' ∧ WF s' ∧ s'.abs = s.abs.set k v := by
  cases hdd : s.dirty with
  | none => simp [hdd] at hd
  | some d =>
    simp only [addNew, hdd]
    refine ⟨_, rfl, ?_, ?_⟩
    · obtain ⟨rk, dk, am, rid, did, rinj, dinj, cross, rde, rdn, clean, dne⟩ := h
      simp only [State.dget, hdd, Option.getD_some, Option.isSome_some] at *
      constructor <;> simp only [State.dget, Option.getD_some, Option.isSome_some, GMap.get_set]
      · exact rk
      · exact GMap.wf_set dk k _
      · exact am
      all_goals grind
    · funext k'
      simp only [State.abs, State.ent, State.dget, Option.getD_some, GMap.get_set, M.set, hdd]
      by_cases hk : k' = k
      · subst hk; simp [hr, Ptr.get?]
      · simp only [hk, if_false]
        cases he : (s.read.get k').or (d.get k') with
        | none => rfl
        | some e =>
          have : e ≠ s.next := by
            have h1 := h.rid k' e
            have h2 := h.did k' e
            simp only [State.dget, hdd, Option.getD_some] at h2
            cases hrg : s.read.get k' <;> rw [hrg] at he <;> simp at he
            · have := h2 he; omega
            · subst he; have := h1 hrg; omega
          simp [this]

theorem unexpunge_spec {s : State K V} (h : WF s) {k : K} {e : Nat} (hr : s.read.get k = some e) (hp : s.p e = .expunged) :
    ∃ s', unexpunge s k e = some s' ∧ WF s' ∧ s'.abs = s.abs ∧ s'.read = s.read ∧ s'.p e = .nil ∧ s'.ent k = some e := by
  cases hdd : s.dirty with
  | none => exact absurd hp (h.clean k e (by simp [hdd]) hr)
  | some d =>
    simp only [unexpunge, hp, setDirty, State.setP, hdd]
    refine ⟨_, rfl, ?_, ?_, rfl, by simp, by simp [State.ent, hr]⟩
    · obtain ⟨rk, dk, am, rid, did, rinj, dinj, cross, rde, rdn, clean, dne⟩ := h
      simp only [State.dget, hdd, Option.getD_some, Option.isSome_some] at *
      constructor <;> simp only [State.dget, Option.getD_some, Option.isSome_some, GMap.get_set]
      · exact rk
      · exact GMap.wf_set dk k _
      · exact am
      all_goals grind
    · funext k'
      simp only [State.abs, State.ent, State.dget, Option.getD_some, GMap.get_set, hdd]
      have hdk : d.get k = none := by have := h.rde k e (by simp [hdd]) hr hp; simpa [State.dget, hdd] using this
      by_cases hk : k' = k
      · subst hk; simp [hr, hp, Ptr.get?]
      · simp only [hk, if_false]
        cases he : (s.read.get k').or (d.get k') with
        | none => rfl
        | some e' =>
          have : e' ≠ e := by
            rintro rfl
            have h1 : s.ent k' = some e' := by simp [State.ent, State.dget, hdd, he]
            have h2 : s.ent k = some e' := by simp [State.ent, hr]
            exact hk (ent_inj h h1 h2)
          simp [this]

end Verif.XSync.Map

import Verif.XSync.MapConc
/-!
# The shared state of `xsync.Map` as a transition system

`A` is the part of the shared state that matters for the contents of the map, with maps as functions. `AStep` lists the ways in which the
steps of the program change it. The invariant `GI` and the facts that other calls rely on (`HeldR`, `Held`, `Orphan`) are preserved by all
of them.
-/
namespace Verif.XSync.MapConc
open Verif.Conc Verif.Go

variable {K V : Type}

/-- Proof only: the memory of the map without the order of keys: `read.m`, `dirty`, `amended`, the entries and their keys. -/
structure A (K V : Type) where
  rd : K → Option Nat
  dt : K → Option Nat
  has : Bool
  am : Bool
  p : Nat → Ptr V
  key : Nat → Option K

/-- The contents of the map. -/
def A.abs (a : A K V) (k : K) : Option V :=
  match a.rd k with
  | some e => (a.p e).get?
  | none => match a.dt k with
    | some e => (a.p e).get?
    | none => none

/-- The entry is the one that counts for its key. -/
def A.Live (a : A K V) (k : K) (e : Nat) : Prop := a.rd k = some e ∨ (a.rd k = none ∧ a.dt k = some e)

/-- The entry has been removed from the map for good. -/
def A.Orphan (a : A K V) (k : K) (e : Nat) : Prop := a.key e = some k ∧ a.rd k ≠ some e ∧ a.dt k ≠ some e

/-- `m = some todo` while `m.dirty` is being built and the entries `todo` have not been copied yet. -/
structure GI (a : A K V) (m : Option (List (K × Nat))) : Prop where
  keyR : ∀ k e, a.rd k = some e → a.key e = some k
  keyD : ∀ k e, a.dt k = some e → a.key e = some k
  noD : a.has = false → a.am = false ∧ ∀ k, a.dt k = none
  clean : ∀ k e, a.has = false → a.rd k = some e → a.p e ≠ .expunged
  cover : ∀ k e, a.has = true → a.rd k = some e → (a.dt k = some e ∧ a.p e ≠ .expunged) ∨ (a.dt k = none ∧ a.p e = .expunged) ∨
    (a.dt k = none ∧ a.p e ≠ .expunged ∧ ∃ l, m = some l ∧ (k, e) ∈ l)
  priv : ∀ k e, a.dt k = some e → a.rd k = none → a.am = true ∧ ∃ c w, a.p e = .cell c w
  ready : m = none → a.has = true → a.am = true
  building : m ≠ none → a.has = true ∧ a.am = false
  todo : ∀ k e l, m = some l → (k, e) ∈ l → a.rd k = some e
  todoD : ∀ k e l, m = some l → (k, e) ∈ l → a.dt k = none

/-- The changes made by single steps. The first index says that the change can be made without holding `m.mu`, the second one is an orphan
that is written. -/
inductive AStep [DecidableEq K] : Bool → Option Nat → A K V → Option (List (K × Nat)) → A K V → Option (List (K × Nat)) → Prop where
  | same (a : A K V) (m : Option (List (K × Nat))) : AStep true none a m a m
  /-- a value is stored in an entry -/
  | write (a : A K V) (m : Option (List (K × Nat))) (k : K) (e : Nat) (c : Nat) (v : V) : a.rd k = some e → a.p e ≠ .expunged →
      AStep true none a m { a with p := upd a.p e (.cell c v) } m
  | writeD (a : A K V) (m : Option (List (K × Nat))) (k : K) (e : Nat) (c : Nat) (v : V) : a.rd k = none → a.dt k = some e →
      AStep false none a m { a with p := upd a.p e (.cell c v) } m
  | erase (a : A K V) (m : Option (List (K × Nat))) (k : K) (e : Nat) : a.rd k = some e → a.p e ≠ .expunged →
      AStep true none a m { a with p := upd a.p e .nil } m
  | drop (a : A K V) (m : Option (List (K × Nat))) (k : K) (e : Nat) (c : Nat) (v : V) : a.Orphan k e → a.p e = .cell c v →
      AStep true (some e) a m { a with p := upd a.p e .nil } m
  | unexp (a : A K V) (k : K) (e : Nat) : a.rd k = some e → a.p e = .expunged →
      AStep false none a none { a with p := upd a.p e .nil, dt := fun k' => if k' = k then some e else a.dt k' } none
  | start (a : A K V) (l : List (K × Nat)) : a.has = false → (∀ k e, a.rd k = some e ↔ (k, e) ∈ l) →
      AStep false none a none { a with has := true, dt := fun _ => none } (some l)
  | perm (a : A K V) (l l' : List (K × Nat)) : (∀ x, x ∈ l ↔ x ∈ l') → AStep false none a (some l) a (some l')
  | skip (a : A K V) (k : K) (e : Nat) (l l' : List (K × Nat)) : (∀ x, x ∈ l ↔ x = (k, e) ∨ x ∈ l') → a.p e = .expunged →
      AStep false none a (some l) a (some l')
  | keep (a : A K V) (k : K) (e : Nat) (l l' : List (K × Nat)) : (∀ x, x ∈ l ↔ x = (k, e) ∨ x ∈ l') → (∀ e', (k, e') ∉ l') → a.p e ≠ .expunged →
      AStep false none a (some l) { a with dt := fun k' => if k' = k then some e else a.dt k' } (some l')
  | expunge (a : A K V) (k : K) (e : Nat) (l l' : List (K × Nat)) : (∀ x, x ∈ l ↔ x = (k, e) ∨ x ∈ l') → a.p e = .nil → a.dt k = none →
      AStep false none a (some l) { a with p := upd a.p e .expunged } (some l')
  | amend (a : A K V) : AStep false none a (some []) { a with am := true } none
  | add (a : A K V) (k : K) (e : Nat) (c : Nat) (v : V) : a.am = true → a.rd k = none → a.dt k = none → a.key e = none →
      AStep false none a none { a with p := upd a.p e (.cell c v), dt := fun k' => if k' = k then some e else a.dt k', key := upd a.key e (some k) } none
  | promote (a : A K V) : a.has = true → AStep false none a none { a with rd := a.dt, dt := fun _ => none, has := false, am := false } none
  | del (a : A K V) (k : K) : a.rd k = none → AStep false none a none { a with dt := fun k' => if k' = k then none else a.dt k' } none

variable [DecidableEq K]

omit [DecidableEq K] in
theorem GI.dt_has {a : A K V} {m : Option (List (K × Nat))} (h : GI a m) {k : K} {e : Nat} (hd : a.dt k = some e) : a.has = true := by
  have := h.noD; grind

omit [DecidableEq K] in
theorem GI.dt_eq {a : A K V} {m : Option (List (K × Nat))} (h : GI a m) {k : K} {e e' : Nat} (hd : a.dt k = some e) (hr : a.rd k = some e') :
    e = e' := by
  have := h.cover k e' (h.dt_has hd) hr; grind

omit [DecidableEq K] in
theorem GI.dt_ne {a : A K V} {m : Option (List (K × Nat))} (h : GI a m) {k : K} {e : Nat} (hd : a.dt k = some e) : a.p e ≠ .expunged := by
  cases hr : a.rd k with
  | none => obtain ⟨_, c, w, hp⟩ := h.priv k e hd hr; simp [hp]
  | some e' => have := h.dt_eq hd hr; have := h.cover k e' (h.dt_has hd) hr; grind

theorem gi_step {b : Bool} {d : Option Nat} {a a' : A K V} {m m' : Option (List (K × Nat))} (h : AStep b d a m a' m') (hi : GI a m) : GI a' m' := by
  have q1 : ∀ k e, a.dt k = some e → a.has = true := fun k e => hi.dt_has
  have q2 : ∀ k e e', a.dt k = some e → a.rd k = some e' → e = e' := fun k e e' => hi.dt_eq
  have q3 : ∀ k e, a.dt k = some e → a.p e ≠ .expunged := fun k e => hi.dt_ne
  obtain ⟨h1, h2, h3, h4, h5, h6, h7, h8, h9, h10⟩ := hi
  cases h with
  | same => exact ⟨h1, h2, h3, h4, h5, h6, h7, h8, h9, h10⟩
  | start l hh hl => constructor <;> simp only [] <;> grind
  | skip => constructor <;> grind
  | perm => constructor <;> grind
  | add _ k e c v g1 g2 g3 g4 =>
    have g5 : a.has = true := by grind
    constructor <;> simp only [upd]
    · grind
    · grind
    · grind
    · grind
    · intro k' e' _ hr
      have := h5 k' e' g5 hr
      grind
    · intro k' e' hd hr
      refine ⟨g1, ?_⟩
      by_cases he : e' = e
      · exact ⟨c, v, by simp [he]⟩
      · by_cases hk : k' = k
        · simp only [hk, if_true, Option.some.injEq] at hd; exact absurd hd.symm he
        · simp only [hk, if_false] at hd
          simpa [he] using (h6 k' e' hd hr).2
    · grind
    · grind
    · grind
    · grind
  | _ => constructor <;> simp only [A.Orphan, upd] at * <;> grind

/-- Another call got the entry from `read.m`; `saw k x` says that the contents of `k` have been `x` during that call. -/
def HeldR (a : A K V) (saw : K → Option V → Prop) (k : K) (e : Nat) : Prop :=
  a.rd k = some e ∨ (a.Orphan k e ∧ a.p e = .expunged ∧ saw k none)

/-- A `Load` got the entry. -/
def Held (a : A K V) (saw : K → Option V → Prop) (k : K) (e : Nat) : Prop :=
  a.Live k e ∨ (a.Orphan k e ∧ saw k (a.p e).get? ∧ saw k none)

section
variable {b : Bool} {d : Option Nat} {a a' : A K V} {m m' : Option (List (K × Nat))}

omit [DecidableEq K] in
theorem abs_live {k : K} {e : Nat} (h : a.Live k e) : a.abs k = (a.p e).get? := by
  rcases h with h | ⟨h1, h2⟩
  · simp [A.abs, h]
  · simp [A.abs, h1, h2]

/-- Orphans stay orphans. -/
theorem orphan_step (h : AStep b d a m a' m') (hi : GI a m) {k : K} {e : Nat} (ho : a.Orphan k e) : a'.Orphan k e := by
  have q2 : ∀ k e e', a.dt k = some e → a.rd k = some e' → e = e' := fun k e e' => hi.dt_eq
  have h9 := hi.todo
  have h1 := hi.keyR
  clear hi
  cases h <;> simp only [A.Orphan, upd] at * <;> grind

/-- Nobody writes orphans, except as announced. -/
theorem orphan_p (h : AStep b d a m a' m') (hi : GI a m) {k : K} {e : Nat} (ho : a.Orphan k e) (hd : d ≠ some e) : a'.p e = a.p e := by
  have h1 := hi.keyR
  have h2 := hi.keyD
  have h9 := hi.todo
  clear hi
  cases h <;> simp only [A.Orphan, upd] at * <;> grind

theorem drop_p {e : Nat} (h : AStep b (some e) a m a' m') : a'.p e = .nil ∧ ∃ c v, a.p e = .cell c v := by
  cases h with
  | drop _ _ k e c v h1 h2 => exact ⟨by simp, c, v, h2⟩

theorem heldR_step (h : AStep b d a m a' m') (hi : GI a m) {saw saw' : K → Option V → Prop} (hm : ∀ k x, saw k x → saw' k x)
    (hn : ∀ k, saw k (a.abs k)) {k : K} {e : Nat} (hh : HeldR a saw k e) : HeldR a' saw' k e := by
  rcases hh with hh | ⟨h1, h2, h3⟩
  · cases h with
    | promote _ h0 =>
      have := hi.cover k e h0 hh
      have hk := hi.keyR k e hh
      have hs := hn k
      rw [abs_live (Or.inl hh)] at hs
      simp only [HeldR, A.Orphan]
      rcases this with h | h | h
      · exact Or.inl h.1
      · right
        rw [h.2] at hs
        exact ⟨⟨hk, by rw [h.1]; simp, by simp⟩, h.2, hm _ _ hs⟩
      · obtain ⟨_, _, l, h, _⟩ := h; simp at h
    | _ => exact Or.inl hh
  · right
    refine ⟨orphan_step h hi h1, ?_, hm _ _ h3⟩
    rw [orphan_p h hi h1, h2]
    rintro rfl
    obtain ⟨_, c, v, h4⟩ := drop_p h
    rw [h2] at h4; simp at h4

theorem held_step (h : AStep b d a m a' m') (hi : GI a m) {saw saw' : K → Option V → Prop} (hm : ∀ k x, saw k x → saw' k x)
    (hn : ∀ k, saw k (a.abs k)) (hn' : ∀ k, saw' k (a'.abs k)) {k : K} {e : Nat} (hh : Held a saw k e) : Held a' saw' k e := by
  rcases hh with hh | ⟨h1, h2, h3⟩
  · have hs := hn k
    rw [abs_live hh] at hs
    have hk : a.key e = some k := hh.elim (hi.keyR k e) (fun h => hi.keyD k e h.2)
    have q2 : ∀ k e e', a.dt k = some e → a.rd k = some e' → e = e' := fun k e e' => hi.dt_eq
    have h9 := hi.todo
    have hb := hi.building
    have hp := hi.priv
    cases h with
    | promote _ h0 =>
      rcases hh with hh | hh
      · have := hi.cover k e h0 hh
        rcases this with h | h | h
        · exact Or.inl (Or.inl h.1)
        · right
          refine ⟨⟨hk, by simp [h.1], by simp⟩, hm _ _ hs, ?_⟩
          rw [h.2] at hs
          exact hm _ _ hs
        · obtain ⟨_, _, l, h, _⟩ := h; simp at h
      · exact Or.inl (Or.inl hh.2)
    | del _ k' h0 =>
      by_cases hkk : k = k'
      · subst hkk
        right
        have hs' := hn' k
        rcases hh with hh | hh
        · rw [h0] at hh; simp at hh
        · refine ⟨⟨hk, by simp [hh.1], by simp⟩, hm _ _ hs, ?_⟩
          simpa [A.abs, h0] using hs'
      · left
        simpa [A.Live, hkk] using hh
    | start _ l h0 _ =>
      left
      rcases hh with hh | hh
      · exact Or.inl hh
      · have := hi.dt_has hh.2; rw [h0] at this; simp at this
    | _ => left; simp only [A.Live] at *; grind
  · right
    refine ⟨orphan_step h hi h1, ?_, hm _ _ h3⟩
    by_cases hd : d = some e
    · subst hd
      rw [(drop_p h).1]; exact hm _ _ h3
    · rw [orphan_p h hi h1 hd]; exact hm _ _ h2

/-- Without `m.mu` neither `read` nor `dirty` change, nor is anything expunged or unexpunged. -/
theorem free_step (h : AStep true d a m a' m') : m' = m ∧ a'.rd = a.rd ∧ a'.dt = a.dt ∧ a'.has = a.has ∧ a'.am = a.am ∧
    a'.key = a.key ∧ ∀ e, a'.p e = .expunged ↔ a.p e = .expunged := by
  cases h <;> refine ⟨rfl, rfl, rfl, rfl, rfl, rfl, ?_⟩ <;> simp only [upd] <;> grind

end

end Verif.XSync.MapConc

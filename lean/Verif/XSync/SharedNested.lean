import Verif.XSync.MapNested
import Verif.XSync.SharedConcEnds
import Mathlib.Order.Lattice.Nat
/-!
# User functions of `xsync.SharedMap` that make calls on it

As `MapNested.lean`; the calls that the functions given to `Range`, `ComputeIfAbsent` and `ComputeIfPresent` make are on the stack of the
goroutine.
-/
namespace Verif.XSync.SharedConc
open Verif.Conc Verif.Go
open Verif.XSync.MapConc (G Pt inside)

variable {V : Type}

/-- What the user functions do, as `MapConc.Users`. -/
abbrev Users (V : Type) := SOp V → Bytes → Option V → Nat → List (SOp V × SRes V) → Option (SOp V)

/-- The functions run inside the calls of the shards: shared_map.go:71, 80, 138. -/
def fns (U : Users V) : Fns (SOp V) (SRes V) (CPt (BOp V) (BRes V) (Pt Bytes V))
  | op, .inner tr o s, l => match inside o.2 s with
    | some (k, v, n) => U op k v ((visits tr).length + n) l
    | none => none
  | _, .between _, _ => none

/-- No function makes calls forever. -/
def Finite (U : Users V) : Prop := ∀ op k v n, WellFounded fun tr' tr => ∃ op' r, U op k v n tr = some op' ∧ tr' = tr ++ [(op', r)]

/-- The depth of nested calls is limited. -/
def Depth (U : Users V) (rank : SOp V → Nat) : Prop := ∀ op k v n tr op', U op k v n tr = some op' → rank op' < rank op

/-- The key of the operations that call their function with a lock held. -/
def computes : SOp V → Option Bytes
  | .computeIfAbsent k _ => some k
  | .computeIfPresent k _ => some k
  | _ => none

/-- The shards that an operation uses. -/
def Touches (m : Shape) (op : SOp V) (x : Nat) : Prop := match op with
  | .mstore data => ∃ k v, (k, v) ∈ data ∧ m.index k = x
  | .range _ => x < m.len
  | .load k | .has k | .store k _ | .loadOrStore k _ | .computeIfAbsent k _ | .computeIfPresent k _ | .delete k => m.index k = x

/-- The functions of `ComputeIfAbsent` and `ComputeIfPresent` use only shards that come later than the shard of the key, in some order of the
shards. The functions of `Range` may do anything. -/
def Ordered (m : Shape) (pos : Nat → Nat) (U : Users V) : Prop := ∀ op k₀ k v n tr op' x, computes op = some k₀ → U op k v n tr = some op' →
  Touches m op' x → pos (m.index k₀) < pos x

theorem fns_some {U : Users V} {op op' : SOp V} {s : CPt (BOp V) (BRes V) (Pt Bytes V)} {l : List (SOp V × SRes V)} (h : fns U op s l = some op') :
    ∃ tr o p k v n, s = .inner tr o p ∧ inside o.2 p = some (k, v, n) ∧ U op k v ((visits tr).length + n) l = some op' := by
  cases s with
  | between tr => simp [fns] at h
  | inner tr o p =>
    simp only [fns] at h
    split at h
    · rename_i k v n hi; exact ⟨tr, o, p, k, v, n, rfl, hi, h⟩
    · simp at h

theorem fns_wf {U : Users V} (hU : Finite U) (op : SOp V) (s : CPt (BOp V) (BRes V) (Pt Bytes V)) : WellFounded (Longer (fns U) op s) := by
  have none' : (∀ l, fns U op s l = none) → WellFounded (Longer (fns U) op s) := by
    intro h
    refine ⟨fun tr => ⟨_, ?_⟩⟩
    rintro tr' ⟨op', r, h1, _⟩
    rw [h] at h1
    simp at h1
  cases s with
  | between tr => exact none' fun _ => rfl
  | inner tr o p =>
    cases hi : inside o.2 p with
    | none => exact none' fun _ => by simp [fns, hi]
    | some x =>
      obtain ⟨k, v, n⟩ := x
      refine Subrelation.wf ?_ (hU op k v ((visits tr).length + n))
      rintro tr' tr ⟨op', r, h1, h2⟩
      simp only [fns, hi] at h1
      exact ⟨op', r, h1, h2⟩

variable [DecidableEq V] {m : Shape} {mm : Cf V} {H : List (Ev (SOp V) (SRes V))}

/-- The current call of a shard. -/
theorem current (h : (prog m).mach.Exec mm H) {i : Nat} {op : SOp V} {tr : Tr V} {o : Nat × BOp V} {s : Pt Bytes V} (hp : mm.pc i = .at op (.inner tr o s)) :
    m.next op tr = .inl o := by
  obtain ⟨mE, E, hE, hgE, hc, hI⟩ := (client m).decompose MapConc.prog (g₀ := fun _ => MapConc.prog.init) h
  have := hc i
  rw [hp] at this
  exact this.2.1

/-- A bound on the user functions a call still calls. -/
def snw (m : Shape) (op : SOp V) : CPt (BOp V) (BRes V) (Pt Bytes V) → Nat × Nat
  | .between tr => (2 * (parts m op - tr.length), 2)
  | .inner tr _ s => (2 * (parts m op - tr.length) - 1 + (MapConc.nw s).1, (MapConc.nw s).2)

theorem finitary {U : Users V} {rank : SOp V → Nat} (hd : Depth U rank) (hf : Finite U) : Finitary (prog m) (fns U) rank (snw m) where
  rank h := by obtain ⟨_, _, _, k, v, n, _, _, h'⟩ := fns_some h; exact hd _ _ _ _ _ _ h'
  fns := fns_wf hf
  down {mm H i op s c g' x} h hp hs := by
    cases s with
    | between tr =>
      simp only [prog, Client.prog, client] at hs
      split at hs <;> simp only [Option.some.injEq, Prod.mk.injEq] at hs <;> obtain ⟨rfl, rfl⟩ := hs <;> left
      · rename_i o hn
        have := part_lt (next_inl hn)
        simp only [Sum.elim_inl, snw, MapConc.prog, MapConc.nw, MapConc.lex_iff]
        omega
      · simp only [Sum.elim_inr, snw, MapConc.lex_iff]
        omega
    | inner tr o p =>
      have hlt := part_lt (next_inl (current h hp))
      simp only [prog, Client.prog] at hs
      split at hs
      · simp at hs
      · rename_i g₁ p' hx
        simp only [Option.some.injEq, Prod.mk.injEq] at hs
        obtain ⟨rfl, rfl⟩ := hs
        rcases MapConc.fewer hx with h | ⟨h, hq⟩
        · left
          simp only [Sum.elim_inl, snw, MapConc.lex_iff] at h ⊢
          omega
        · right
          simp only [Sum.elim_inl] at h
          exact ⟨by simp only [Sum.elim_inl, snw, h], by simp [fns, MapConc.inside_quiet _ hq]⟩
      · simp only [Option.some.injEq, Prod.mk.injEq] at hs
        obtain ⟨rfl, rfl⟩ := hs
        left
        simp only [Sum.elim_inl, snw, MapConc.lex_iff, List.length_append, List.length_singleton]
        omega

/-- More than the position of every shard. -/
def top (m : Shape) (pos : Nat → Nat) : Nat := (((List.range m.len).map pos).foldr max 0) + 1

theorem lt_top {m : Shape} {pos : Nat → Nat} {x : Nat} (h : x < m.len) : pos x < top m pos := by
  have : ∀ l : List Nat, x ∈ l → pos x ≤ (l.map pos).foldr max 0 := by
    intro l
    induction l with
    | nil => simp
    | cons a l ih =>
      intro hm
      rcases List.mem_cons.mp hm with rfl | hm
      · simp
      · have := ih hm
        simp only [List.map_cons, List.foldr_cons]
        omega
  have := this (List.range m.len) (by simpa using h)
  simp only [top]
  omega

/-- The first position of the shards an operation uses. -/
noncomputable def lvl (m : Shape) (pos : Nat → Nat) (op : SOp V) : Nat := sInf {l | l = top m pos ∨ ∃ x, Touches m op x ∧ x < m.len ∧ l = pos x}

omit [DecidableEq V] in
theorem lvl_le {pos : Nat → Nat} {op : SOp V} {x : Nat} (h : Touches m op x) (hx : x < m.len) : lvl m pos op ≤ pos x := Nat.sInf_le (.inr ⟨x, h, hx, rfl⟩)

omit [DecidableEq V] in
theorem lvl_cases (m : Shape) (pos : Nat → Nat) (op : SOp V) : lvl m pos op = top m pos ∨ ∃ x, Touches m op x ∧ x < m.len ∧ lvl m pos op = pos x :=
  Nat.sInf_mem (s := {l | l = top m pos ∨ ∃ x, Touches m op x ∧ x < m.len ∧ l = pos x}) ⟨_, .inl rfl⟩

omit [DecidableEq V] in
theorem lt_lvl {pos : Nat → Nat} {op : SOp V} {l : Nat} (hl : l < top m pos) (h : ∀ x, Touches m op x → l < pos x) : l < lvl m pos op := by
  rcases lvl_cases m pos op with h' | ⟨x, h1, _, h2⟩
  · rw [h']; exact hl
  · rw [h2]; exact h x h1

omit [DecidableEq V] in
/-- `Range` uses all shards. -/
theorem lvl_range {pos : Nat → Nat} (f : Bytes → V → Nat → Bool) (op : SOp V) : lvl m pos (.range f) ≤ lvl m pos op := by
  rcases lvl_cases m pos op with h' | ⟨x, h1, h2, h3⟩
  · rw [h']; exact Nat.sInf_le (.inl rfl)
  · rw [h3]; exact lvl_le h2 h2

omit [DecidableEq V] in
theorem on_lt {k : Bytes} {b : BOp V} {o : Nat × BOp V} (h : m.on k b = .inl o) : o.1 < m.len := by
  unfold Shape.on at h
  split at h
  · simp only [Sum.inl.injEq] at h; subst h; assumption
  · simp at h

omit [DecidableEq V] in
/-- The calls of shards that a call makes are on shards that it uses, and that exist. -/
theorem touches {op : SOp V} {tr : Tr V} {o : Nat × BOp V} (h : m.next op tr = .inl o) : Touches m op o.1 ∧ o.1 < m.len := by
  have hP := next_inl h
  cases op with
  | mstore data =>
    obtain ⟨k, v, h1, rfl⟩ := hP
    refine ⟨⟨k, v, List.mem_of_getElem? h1, rfl⟩, ?_⟩
    simp only [Shape.next] at h
    split at h
    · simp at h
    · split at h
      · simp at h
      · exact on_lt h
  | range f => obtain ⟨rfl, hlt⟩ := hP; exact ⟨hlt, hlt⟩
  | _ =>
    obtain ⟨k, b, h1, h2, h3⟩ := hP
    simp only [keyed, Option.some.injEq, Prod.mk.injEq] at h1
    obtain ⟨rfl, rfl⟩ := h1
    refine ⟨by rw [h2]; exact rfl, ?_⟩
    simp only [Shape.next] at h
    split at h
    · exact on_lt h
    · simp at h

/-- The position of the lock that is held. -/
def own (pos : Nat → Nat) (_ : SOp V) : CPt (BOp V) (BRes V) (Pt Bytes V) → Option Nat
  | .inner _ o s => if s.holds then some (pos o.1) else none
  | .between _ => none

theorem levels {U : Users V} {pos : Nat → Nat} (hU : Ordered m pos U) : Levels (prog m) (fns U) (own pos) (lvl m pos) (top m pos) where
  waits {mm H} h {i op s} hp := by
    cases s with
    | between tr =>
      left
      cases hn : m.next op tr with
      | inl o => exact ⟨⟨mm.g, upd mm.pc i (.at op (.inner tr o (MapConc.prog.begin o.2)))⟩, by simp only [Prog.mach, hp, prog, Client.prog, client, hn]⟩
      | inr r => exact ⟨⟨mm.g, upd mm.pc i (.ret op r)⟩, by simp only [Prog.mach, hp, prog, Client.prog, client, hn]⟩
    | inner tr o s =>
      obtain ⟨x, o⟩ := o
      obtain ⟨vx, gx, hI, h1, h2⟩ := shards h x
      have hv := h1 i op tr o s hp
      by_cases hw : s = .lock ∧ (mm.g x).mu ≠ none
      · obtain ⟨rfl, hmu⟩ := hw
        obtain ⟨j, hj⟩ := Option.ne_none_iff_exists'.mp hmu
        obtain ⟨o', s', a1, a2⟩ := hI.muIn _ hj
        obtain ⟨i', op', tr', _, b2⟩ := h2 _ _ _ a1
        obtain ⟨c1, c2⟩ := touches (current h hp)
        exact .inr ⟨by simp [own, Pt.holds], pos x, i', op', _, lvl_le c1 c2, lt_top c2, b2, by simp [own, a2]⟩
      · obtain ⟨⟨g', y⟩, hx⟩ := MapConc.enabled hI hv fun hl => Classical.byContradiction fun hc => hw ⟨hl, hc⟩
        have hx' : MapConc.prog.step (mm.g x) (Nat.pair i tr.length) o s 0 = some (g', y) := hx
        left
        cases y with
        | inl s' => exact ⟨⟨upd mm.g x g', upd mm.pc i (.at op (.inner tr (x, o) s'))⟩, by simp only [Prog.mach, hp, prog, Client.prog, hx']⟩
        | inr r => exact ⟨⟨upd mm.g x g', upd mm.pc i (.at op (.between (tr ++ [((x, o), r)])))⟩, by simp only [Prog.mach, hp, prog, Client.prog, hx']⟩
  above {mm H} h {i op s} hp {l op'} hF := by
    obtain ⟨tr, o, p, k, v, n, rfl, hi, hu⟩ := fns_some hF
    have hn := current h hp
    have hP := next_inl hn
    have hc : ∀ k₀, computes op = some k₀ → o.1 = m.index k₀ → lvl m pos op ≤ lvl m pos op' ∧ ∀ l, own pos op (.inner tr o p) = some l → l < lvl m pos op' := by
      intro k₀ h1 h2
      obtain ⟨h3, h4⟩ := touches hn
      have h5 : pos o.1 < lvl m pos op' := lt_lvl (lt_top h4) fun x hx => by rw [h2]; exact hU _ _ _ _ _ _ _ _ h1 hu hx
      refine ⟨Nat.le_trans (lvl_le h3 h4) (Nat.le_of_lt h5), fun l hl => ?_⟩
      simp only [own] at hl
      split at hl <;> simp only [Option.some.injEq, reduceCtorEq] at hl
      rw [← hl]; exact h5
    cases op with
    | range f =>
      obtain ⟨rfl, _⟩ := hP
      refine ⟨lvl_range f op', fun l hl => ?_⟩
      cases p <;> simp [inside] at hi
      simp [own, Pt.holds] at hl
    | mstore data =>
      obtain ⟨k, v, _, rfl⟩ := hP
      simp [inside] at hi
    | computeIfAbsent k₀ f =>
      obtain ⟨k', b, h1, rfl, _⟩ := hP
      simp only [keyed, Option.some.injEq, Prod.mk.injEq] at h1
      exact hc k₀ rfl (by simp [h1.1])
    | computeIfPresent k₀ f =>
      obtain ⟨k', b, h1, rfl, _⟩ := hP
      simp only [keyed, Option.some.injEq, Prod.mk.injEq] at h1
      exact hc k₀ rfl (by simp [h1.1])
    | _ =>
      obtain ⟨k', b, h1, rfl, _⟩ := hP
      simp only [keyed, Option.some.injEq, Prod.mk.injEq] at h1
      obtain ⟨_, rfl⟩ := h1
      simp [inside] at hi

/-! ## Deadlocks -/

/-- A set of goroutines none of which moves: each waits for the lock of a shard that a call of one of them holds. -/
def Deadlocked (D : Nat → Prop) (n : NConf (Nat → G Bytes V) (SOp V) (SRes V) (CPt (BOp V) (BRes V) (Pt Bytes V))) : Prop :=
  ∀ t, D t → ∃ j l rest op tr x o i u t' l', n.stack t = (j, l) :: rest ∧ n.m.pc j = .at op (.inner tr (x, o) .lock) ∧ (n.m.g x).mu = some (Nat.pair i u) ∧
    D t' ∧ (i, l') ∈ n.stack t'

/-- A deadlock stays. -/
theorem Deadlocked.forever {U : Users V} {D : Nat → Prop} {n n' : NConf (Nat → G Bytes V) (SOp V) (SRes V) (CPt (BOp V) (BRes V) (Pt Bytes V))}
    {H H' : List (Ev (SOp V) (SRes V))} (hD : Deadlocked D n) (h : NExec (prog m) (fns U) n H) (hl : NLeads (prog m) (fns U) n H n' H') : Still D n n' := by
  refine (hl.still h (D := D) (Q := fun g => ∀ x i u t l, (n.m.g x).mu = some (Nat.pair i u) → D t → (i, l) ∈ n.stack t → (g x).mu = some (Nat.pair i u))
    (fun _ _ _ _ _ h _ _ => h) ?_ ?_).2
  · intro t ht
    obtain ⟨j, l, rest, op, tr, x, o, i, u, t', l', h1, h2, h3, h4, h5⟩ := hD t ht
    refine ⟨j, l, rest, op, _, h1, h2, by simp [fns, inside], fun g c hq => ?_⟩
    have := hq x i u t' l' h3 h4 h5
    have hn : MapConc.prog.step (g x) (Nat.pair j tr.length) o .lock c = none := by simp [MapConc.prog, MapConc.step, this]
    simp only [prog, Client.prog, hn]
  · intro n₁ H₁ h₁ hS hq j op s c g' y hp hno hx y' i u t l h1 h2 h3
    have hmu := hq y' i u t l h1 h2 h3
    have hne : j ≠ i := by
      rintro rfl
      exact hno t l h2 (by rw [(hS t h2).1]; exact h3)
    cases s with
    | between tr =>
      simp only [prog, Client.prog] at hx
      split at hx <;> simp only [Option.some.injEq, Prod.mk.injEq] at hx <;> obtain ⟨rfl, _⟩ := hx <;> exact hmu
    | inner tr o s =>
      obtain ⟨x, o⟩ := o
      have hg : ∃ g₁ z, MapConc.step (n₁.m.g x) (Nat.pair j tr.length) o s c = some (g₁, z) ∧ g' = upd n₁.m.g x g₁ := by
        simp only [prog, Client.prog] at hx
        split at hx
        · simp at hx
        all_goals
          rename_i g₁ z hz
          simp only [Option.some.injEq, Prod.mk.injEq] at hx
          exact ⟨g₁, _, hz, hx.1.symm⟩
      obtain ⟨g₁, z, hz, rfl⟩ := hg
      by_cases hxy : y' = x
      · subst hxy
        rw [upd_same]
        obtain ⟨vx, gx, hI, h4, _⟩ := shards h₁.flat y'
        exact MapConc.mu_keep hI hmu (h4 j op tr o s hp) (fun hc => hne (Nat.pair_eq_pair.mp hc).1) hz
      · rw [upd_ne _ _ hxy]; exact hmu

end Verif.XSync.SharedConc

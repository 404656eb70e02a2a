import Verif.XSync.SharedConcSpec
import Verif.XSync.MapConcProps
import Verif.XSync.SharedProps
/-!
# Lemmas about the concurrent `SharedMap`
-/
namespace Verif.XSync.SharedConc
open Verif.Conc Verif.Go
open Verif.XSync.MapConc (M G Pt)

variable {V : Type}

/-- Abbreviation. -/
abbrev BOp (V : Type) := MapConc.Op Bytes V
/-- Abbreviation. -/
abbrev BRes (V : Type) := MapConc.Res Bytes V
/-- Abbreviation. -/
abbrev Tr (V : Type) := List ((Nat × BOp V) × BRes V)

/-- Every key has a shard, and `Range` visits all shards. -/
structure Shape.Good (m : Shape) : Prop where
  index : ∀ k, m.index k < m.len
  size : m.len = m.shardBlockSize.toNat

theorem newShape_good {opts : List Int} {m : Shape} (hm : newShape opts = some m) (hl : 0 < m.len) : m.Good := by
  simp only [newShape, Option.map_eq_some_iff] at hm
  obtain ⟨m0, h0, rfl⟩ := hm
  refine ⟨fun k => Shared.C26_index opts m0 h0 (by rintro h; simp [h] at hl) k, ?_⟩
  simp only [Shared.newSharedMap] at h0
  split at h0
  · simp at h0
  · simp only [Option.some.injEq] at h0
    subst h0
    simp

/-- The calls of shards a call makes. -/
def Part (m : Shape) (op : SOp V) (t : Nat) (o : Nat × BOp V) : Prop :=
  match op with
  | .mstore data => ∃ k v, data[t]? = some (k, v) ∧ o = (m.index k, .store k v)
  | .range f => o = (t, .range f) ∧ t < m.len
  | op => ∃ k b, keyed op = some (k, b) ∧ o = (m.index k, b) ∧ t = 0

theorem on_inl {m : Shape} {k : Bytes} {b : BOp V} {o : Nat × BOp V} (h : m.on k b = .inl o) : o = (m.index k, b) := by
  unfold Shape.on at h
  split at h
  · simpa using h.symm
  · simp at h

theorem next_inl {α : Type} {m : Shape} {op : SOp V} {tr : List (α × BRes V)} {o : Nat × BOp V} (h : m.next op tr = .inl o) : Part m op tr.length o := by
  cases op with
  | mstore data =>
    simp only [Shape.next] at h
    split at h
    · simp at h
    · split at h
      · simp at h
      · rename_i k v hd
        exact ⟨k, v, hd, on_inl h⟩
  | range f =>
    simp only [Shape.next] at h
    split at h <;> (repeat' split at h) <;> simp_all [Part]
  | _ =>
    simp only [Shape.next] at h
    cases tr with
    | nil => exact ⟨_, _, rfl, on_inl h, rfl⟩
    | cons x tr => simp at h

/-- The effect behind a call of a shard. -/
def effect (op : SOp V) (o : BOp V) (r : BRes V) : SOp V × SRes V :=
  match op, o with
  | .mstore _, .store k v => (.store k v, .unit)
  | .range f, _ => (.range f, .unit)
  | op, _ => (op, result op r)

/-- The shards as one map. -/
def glue (m : Shape) (s : Nat → M Bytes V) : M Bytes V := fun k => s (m.index k) k

theorem effect_legal {m : Shape} {op : SOp V} {t : Nat} {o : Nat × BOp V} {r : BRes V} {s s' : Nat → M Bytes V} (hp : Part m op t o)
    (h : (famSpec MapConc.mapSpec).step s o r s') : SDoes (glue m s) (effect op o.2 r).1 (effect op o.2 r).2 (glue m s') := by
  obtain ⟨h1, h2⟩ := h
  -- the other keys
  have hput : ∀ (k : Bytes) (x : Option V), o.1 = m.index k → s' o.1 = (s o.1).put k x → glue m s' = (glue m s).put k x := by
    intro k x e1 e2
    funext k'
    by_cases hk : k' = k
    · subst hk; simp [glue, ← e1, e2, MapConc.M.put]
    · by_cases hi : m.index k' = o.1
      · simp [glue, hi, e2, hk, MapConc.M.put]
      · simp [glue, h2 _ hi, hk, MapConc.M.put]
  have hsame : s' o.1 = s o.1 → glue m s' = glue m s := by
    intro e
    funext k
    simp only [glue]
    by_cases hi : m.index k = o.1
    · rw [hi, e]
    · rw [h2 _ hi]
  have h1 : MapConc.Does (s o.1) o.2 r (s' o.1) := h1
  cases op with
  | mstore data =>
    obtain ⟨k, v, -, rfl⟩ := hp
    simp only [effect]
    simp only at h1 hput
    generalize hs : s' (m.index k) = x at h1 hput
    cases h1
    rw [hput k (some v) rfl rfl]
    exact .store _ _ _
  | range f =>
    obtain ⟨rfl, -⟩ := hp
    simp only [effect]
    simp only at h1 hsame
    generalize hs : s' t = x at h1 hsame
    cases h1
    rw [hsame rfl]
    exact .range _ _ _
  | _ =>
    obtain ⟨k', b, hk, rfl, rfl⟩ := hp
    simp only [keyed, Option.some.injEq, Prod.mk.injEq] at hk
    obtain ⟨rfl, rfl⟩ := hk
    simp only [effect]
    simp only at h1 hput hsame
    generalize hs : s' (m.index _) = x at h1 hput hsame
    generalize hs0 : s (m.index _) = x0 at h1 hput hsame
    cases h1 <;> simp only [result]
    all_goals
      first
      | rw [hsame rfl]
      | rw [hput _ _ rfl rfl]
    all_goals subst hs0
    all_goals
      first
      | exact .load _ _
      | exact .has _ _
      | exact .store _ _ _
      | exact .loadOrStore_found _ _ _ _ ‹_›
      | exact .loadOrStore_absent _ _ _ ‹_›
      | exact .computeIfAbsent_found _ _ _ _ ‹_›
      | exact .computeIfAbsent_absent _ _ _ _ ‹_›
      | exact .computeIfPresent_absent _ _ _ ‹_›
      | exact .computeIfPresent_found _ _ _ _ _ _ ‹_›
      | exact .delete _ _

/-- No call of a shard panics. -/
theorem step_no_panic {s s' : Nat → M Bytes V} {o : Nat × BOp V} {r : BRes V} (h : (famSpec MapConc.mapSpec).step s o r s') : r ≠ .panic := by
  obtain ⟨h1, -⟩ := h
  have h1 : MapConc.Does (s o.1) o.2 r (s' o.1) := h1
  rintro rfl
  generalize o.2 = b at h1
  cases h1

/-- A call of a shard changes at most the value of one key of the shard. -/
theorem part_puts {m : Shape} {op : SOp V} {t : Nat} {o : Nat × BOp V} {r : BRes V} {s s' : M Bytes V} (hp : Part m op t o)
    (h1 : MapConc.Does s o.2 r s') : (∃ k y, m.index k = o.1 ∧ s' = s.put k y) ∨ s' = s := by
  cases op with
  | mstore data =>
    obtain ⟨k', v, -, rfl⟩ := hp
    cases h1
    exact Or.inl ⟨k', _, rfl, rfl⟩
  | range f =>
    obtain ⟨rfl, -⟩ := hp
    cases h1
    exact Or.inr rfl
  | _ =>
    obtain ⟨k', b, hkb, rfl, -⟩ := hp
    simp only [keyed, Option.some.injEq, Prod.mk.injEq] at hkb
    obtain ⟨rfl, rfl⟩ := hkb
    cases h1 <;> first | exact Or.inr rfl | exact Or.inl ⟨_, _, rfl, rfl⟩

/-- The keys a `Range` of a shard visited. -/
def keysOf : BRes V → List Bytes
  | .visited l _ => l.map (·.1)
  | _ => []

/-- The effects of a call that has made the calls `tr` of shards, none of which panicked. -/
theorem effects_of {m : Shape} (hg : m.Good) {op : SOp V} {r : SRes V} {tr : Tr V} (h1 : m.next op tr = .inr r)
    (h2 : ∀ t o r', tr[t]? = some (o, r') → m.next op (tr.take t) = .inl o) (hnp : ∀ x ∈ tr, x.2 ≠ .panic) :
    Effects op r (tr.map fun x => effect op x.1.2 x.2) := by
  have hon : ∀ (k : Bytes) (b : BOp V), m.on k b = .inl (m.index k, b) := fun k b => by simp [Shape.on, hg.index]
  have keyed : (∃ k b, keyed op = some (k, b)) → (∀ tr : Tr V, m.next op tr = match tr with
      | [] => match keyed op with
        | some (k, o) => m.on k o
        | none => .inr .panic
      | x :: _ => .inr (result op x.2)) → (∀ o r, effect op o r = (op, result op r)) → (tr.map fun x => effect op x.1.2 x.2) = [(op, r)] := by
    rintro ⟨k, b, hk⟩ hn he
    rw [hn] at h1
    clear hnp
    match tr, h1, h2 with
    | [], h1, _ => simp [hk, hon] at h1
    | [x], h1, _ => simp only [Sum.inr.injEq] at h1; simp [he, h1]
    | x :: y :: tr, _, h2 =>
      have := h2 1 y.1 y.2 rfl
      rw [hn] at this
      simp at this
  cases op with
  | mstore data =>
    simp only [Shape.next] at h1
    split at h1
    · rename_i x hx
      exact absurd rfl (hnp _ (List.mem_of_getLast? hx))
    · split at h1
      · rename_i hd
        simp only [Sum.inr.injEq] at h1
        refine ⟨h1.symm, ?_⟩
        apply List.ext_getElem?
        intro t
        simp only [List.getElem?_map]
        rcases Nat.lt_or_ge t tr.length with ht | ht
        · have hp := next_inl (h2 _ _ _ (List.getElem?_eq_getElem ht))
          rw [List.length_take, Nat.min_eq_left (by omega)] at hp
          obtain ⟨k, v, a1, a2⟩ := hp
          replace a2 : tr[t].1 = _ := a2
          rw [List.getElem?_eq_getElem ht, a1]
          simp [a2, effect]
        · rw [List.getElem?_eq_none ht, List.getElem?_eq_none (Nat.le_trans (List.getElem?_eq_none_iff.mp hd) ht)]
          rfl
      · rw [hon] at h1
        simp at h1
  | range f =>
    intro x hx
    simp only [List.mem_map] at hx
    obtain ⟨y, -, rfl⟩ := hx
    rfl
  | _ => exact keyed ⟨_, _, rfl⟩ (fun tr => by cases tr <;> rfl) (fun _ _ => rfl)

/-- What a `Range` that has made the calls `tr` of shards saw, at the instants `D`. -/
theorem range_seen {m : Shape} (hg : m.Good) {f : Bytes → V → Nat → Bool} {r : SRes V} {tr : Tr V} (h1 : m.next (.range f) tr = .inr r)
    (h2 : ∀ t o r', tr[t]? = some (o, r') → m.next (.range f) (tr.take t) = .inl o) {D : Nat → Prop} {stE : Nat → Nat → M Bytes V}
    (hcall : ∀ t o r', tr[t]? = some (o, r') → ∃ l b, r' = .visited l b ∧ (l.map (·.1)).Nodup ∧
        (∀ x ∈ l, ∃ n, D n ∧ stE n t x.1 = some x.2) ∧ (b = true → ∀ k, k ∈ l.map (·.1) ∨ ∃ n, D n ∧ stE n t k = none))
    (home : ∀ n, D n → ∀ x k, stE n x k ≠ none → m.index k = x) :
    ∃ l all, r = .visited l all ∧ (l.map (·.1)).Nodup ∧ (∀ k v, (k, v) ∈ l → ∃ n, D n ∧ glue m (stE n) k = some v) ∧
      (all = true → ∀ k, (∀ n, D n → glue m (stE n) k ≠ none) → ∃ v, (k, v) ∈ l) := by
  -- the result
  have hr' : ∃ all, r = .visited (visits tr) all ∧ (all = true → m.len ≤ tr.length ∧ ∀ x ∈ tr, ∃ l, x.2 = .visited l true) := by
    simp only [Shape.next] at h1
    have htrue : (∀ x l, tr.getLast? = some (x, .visited l false) → False) → ∀ x ∈ tr, ∃ l, x.2 = .visited l true := by
      intro hlast x hx
      obtain ⟨t, ht⟩ := List.getElem?_of_mem hx
      have hlt := (List.getElem?_eq_some_iff.mp ht).1
      obtain ⟨l, b, hb, -⟩ := hcall t x.1 x.2 ht
      cases b with
      | true => exact ⟨l, hb⟩
      | false =>
        exfalso
        rcases Nat.lt_or_ge (t + 1) tr.length with h' | h'
        · have := h2 (t + 1) _ _ (List.getElem?_eq_getElem h')
          have hl : (tr.take (t + 1)).getLast? = some x := by
            rw [List.getLast?_take]; simp [ht]
          simp only [Shape.next, hl] at this
          rw [show x = (x.1, x.2) from rfl, hb] at this
          simp at this
        · refine hlast x.1 l ?_
          rw [List.getLast?_eq_getElem?, show tr.length - 1 = t by omega, ht, ← hb]
    split at h1
    · simp only [Sum.inr.injEq] at h1
      exact ⟨false, h1.symm, by simp⟩
    · rename_i hlast
      split at h1
      · split at h1
        · simp at h1
        · have := hg.size; omega
      · simp only [Sum.inr.injEq] at h1
        refine ⟨true, h1.symm, fun _ => ⟨by have := hg.size; omega, htrue ?_⟩⟩
        intro x l hx; rw [hx] at hlast; simp at hlast
    · rename_i hlast
      split at h1
      · split at h1
        · simp at h1
        · have := hg.size; omega
      · simp only [Sum.inr.injEq] at h1
        refine ⟨true, h1.symm, fun _ => ⟨by have := hg.size; omega, htrue ?_⟩⟩
        intro x l hx; rw [hx] at hlast; simp at hlast
    · rename_i x hx q1 q2
      exfalso
      rw [List.getLast?_eq_getElem?] at q2
      obtain ⟨l, b, hb, -⟩ := hcall _ x.1 x.2 q2
      cases b with
      | true => exact q1 x.1 l (by rw [← hb])
      | false => exact hx x.1 l (by rw [← hb])
  obtain ⟨all, rfl, hall⟩ := hr'
  refine ⟨_, all, rfl, ?_, ?_, ?_⟩
  · have hmap : (visits tr).map (·.1) = tr.flatMap fun x => keysOf x.2 := by
      simp only [visits, List.map_flatMap]
      congr 1
      funext x
      cases x.2 <;> rfl
    rw [hmap, List.nodup_flatMap]
    constructor
    · intro x hx
      obtain ⟨t, ht⟩ := List.getElem?_of_mem hx
      obtain ⟨l, b, hb, hn, -⟩ := hcall t x.1 x.2 ht
      rw [hb]
      exact hn
    · rw [List.pairwise_iff_getElem]
      intro t t' ht ht' hlt k hk hk'
      have key : ∀ t (ht : t < tr.length), k ∈ keysOf (tr[t]).2 → m.index k = t := by
        intro t ht hk
        obtain ⟨l, b, hb, -, hs, -⟩ := hcall t _ _ (List.getElem?_eq_getElem ht)
        replace hb : (tr[t]).2 = .visited l b := hb
        rw [hb] at hk
        obtain ⟨⟨k', v⟩, b1, rfl⟩ := List.mem_map.mp hk
        obtain ⟨n, n1, n2⟩ := hs _ b1
        exact home n n1 t _ (by simp [n2])
      have := key t ht hk
      have := key t' ht' hk'
      omega
  · intro k v hk
    simp only [visits, List.mem_flatMap] at hk
    obtain ⟨x, hx, hk⟩ := hk
    obtain ⟨t, ht⟩ := List.getElem?_of_mem hx
    obtain ⟨l, b, hb, -, hs, -⟩ := hcall t x.1 x.2 ht
    rw [hb] at hk
    obtain ⟨n, n1, n2⟩ := hs (k, v) hk
    refine ⟨n, n1, ?_⟩
    simp only [glue]
    rw [home n n1 t k (by simp [n2])]
    exact n2
  · intro ha k hk
    obtain ⟨a1, a2⟩ := hall ha
    have hlt := Nat.lt_of_lt_of_le (hg.index k) a1
    have ht := List.getElem?_eq_getElem hlt
    obtain ⟨l, b, hb, -, -, hs⟩ := hcall _ _ _ ht
    replace hb : (tr[m.index k]).2 = .visited l b := hb
    obtain ⟨l', hl'⟩ := a2 _ (List.getElem_mem hlt)
    rw [hb] at hl'
    simp only [MapConc.Res.visited.injEq] at hl'
    rcases hs hl'.2 k with hs | ⟨n, n1, n2⟩
    · obtain ⟨⟨k', v⟩, b1, rfl⟩ := List.mem_map.mp hs
      refine ⟨v, ?_⟩
      simp only [visits, List.mem_flatMap]
      exact ⟨_, List.getElem_mem hlt, by rw [hb]; exact b1⟩
    · exact absurd n2 (hk n n1)

/-! ## The calls of shards behind a history -/

/-- An increasing list of numbers with all smaller numbers is `0, 1, ...`. -/
theorem range_of_closed : ∀ l : List Nat, l.Pairwise (· < ·) → (∀ x ∈ l, ∀ y, y < x → y ∈ l) → l = List.range l.length := by
  intro l
  induction l using List.reverseRecOn with
  | nil => intro _ _; rfl
  | append_singleton l a ih =>
    intro h1 h2
    rw [List.pairwise_append] at h1
    obtain ⟨h1, -, h3⟩ := h1
    have h3 : ∀ x ∈ l, x < a := fun x hx => h3 x hx a (by simp)
    have e := ih h1 fun x hx y hy => by
      have := h2 x (by simp [hx]) y hy
      simp only [List.mem_append, List.mem_singleton] at this
      rcases this with h | h
      · exact h
      · have := h3 x hx; omega
    have ha : a = l.length := by
      rcases Nat.lt_trichotomy a l.length with h | h | h
      · have : a ∈ l := by rw [e]; simpa using h
        have := h3 a this; omega
      · exact h
      · have := h2 a (by simp) l.length h
        simp only [List.mem_append, List.mem_singleton] at this
        rcases this with h' | h'
        · rw [e] at h'; simp at h'
        · omega
    rw [List.length_append, List.length_singleton, List.range_succ, ← e, ha]

theorem coupled_part {m : Shape} {pc : Proc (SOp V) (SRes V) (CPt (BOp V) (BRes V) (Pt Bytes V))} {sub : Nat → Proc (Nat × BOp V) (BRes V) (Pt Bytes V)}
    (h : Coupled (client m) pc sub) {t : Nat} {o : Nat × BOp V} {x : Pt Bytes V ⊕ BRes V} (hv : (sub t).view = some (o, x)) :
    ∃ op z, pc.view = some (op, z) ∧ Part m op t o := by
  have hsc : ∀ {op : SOp V} {tr : Tr V} {p : Proc (Nat × BOp V) (BRes V) (Pt Bytes V)}, (client m).Script op tr →
      (∀ t, sub t = subs tr p t) → (∀ o' x', p.view = some (o', x') → (client m).next op tr = .inl o') → Part m op t o := by
    intro op tr p h1 h2 h3
    rw [h2, subs] at hv
    split at hv
    · rename_i o' r' htr
      simp only [Proc.view, Option.some.injEq, Prod.mk.injEq] at hv
      obtain ⟨rfl, rfl⟩ := hv
      have := next_inl (h1 t _ _ htr)
      have hlt := (List.getElem?_eq_some_iff.mp htr).1
      rwa [List.length_take, Nat.min_eq_left (by omega)] at this
    · split at hv
      · rename_i ht
        subst ht
        exact next_inl (h3 _ _ hv)
      · simp [Proc.view] at hv
  cases pc with
  | idle => have := h t; simp only [this] at hv; simp [Proc.view] at hv
  | «at» op s =>
    refine ⟨op, _, rfl, ?_⟩
    cases s with
    | between tr => exact hsc h.1 h.2 (by simp [Proc.view])
    | inner tr o' s =>
      refine hsc h.1 h.2.2 ?_
      intro o'' x' he
      simp only [Proc.view, Option.some.injEq, Prod.mk.injEq] at he
      rw [← he.1]; exact h.2.1
  | ret op r => obtain ⟨tr, h1, -, h2⟩ := h; exact ⟨op, _, rfl, hsc h1 h2 (by simp [Proc.view])⟩
  | done op r => obtain ⟨tr, h1, -, h2⟩ := h; exact ⟨op, _, rfl, hsc h1 h2 (by simp [Proc.view])⟩

variable [DecidableEq V]
set_option linter.unusedSectionVars false

/-- Abbreviation. -/
abbrev Cf (V : Type) := Conf (Nat → G Bytes V) (SOp V) (SRes V) (CPt (BOp V) (BRes V) (Pt Bytes V))

/-- Behind a history of the `SharedMap` there is a linearized history of calls of the shards. -/
structure Behind (m : Shape) (mm : Cf V) (H : List (Ev (SOp V) (SRes V))) (E : List (Ev (Nat × BOp V) (BRes V)))
    (LE : List (Nat × (Nat × BOp V) × BRes V)) (stE : Nat → Nat → M Bytes V) : Prop where
  inside : Inside H E
  lin : Linearization (famSpec MapConc.mapSpec) E LE stE
  part : ∀ i t o, Ev.inv (Nat.pair i t) o ∈ E → ∃ op z, mm.view i = some (op, z) ∧ Part m op t o
  once : ∀ j o o', Ev.inv j o ∈ E → Ev.inv j o' ∈ E → o = o'
  ended : ∀ i op r, mm.view i = some (op, .inr r) → ∃ tr : Tr V, m.next op tr = .inr r ∧
    (∀ t o r', tr[t]? = some (o, r') → m.next op (tr.take t) = .inl o) ∧
    (∀ t o r', tr[t]? = some (o, r') → Ev.inv (Nat.pair i t) o ∈ E ∧ Ev.ret (Nat.pair i t) r' ∈ E) ∧
    ∀ t o, Ev.inv (Nat.pair i t) o ∈ E → t < tr.length
  saw : ∀ j o r, Ev.inv j o ∈ E → Ev.ret j r ∈ E →
    MapConc.ResOk (fun k x => ∃ n, During E LE j n ∧ stE n o.1 k = x)
      (fun k w => ∃ n n' o' r', During E LE j n ∧ stE n o.1 k = some w ∧ n ≤ n' ∧ LE[n']? = some (j, o', r')) o.2 r
  /-- a call of a shard at a point at which it has had no effect -/
  calm : ∀ i op tr o s, mm.pc i = .at op (.inner tr o s) → (∀ (a : MapConc.A Bytes V) gh j, MapConc.FLoc a gh j o.2 s → gh.st j = .invoked o.2) →
    ∀ e ∈ LE, e.1 ≠ Nat.pair i tr.length

theorem behind {m : Shape} {g₀ : Nat → G Bytes V} (h0 : ∀ x, MapConc.Blank (g₀ x)) {mm : Cf V} {H : List (Ev (SOp V) (SRes V))} (h : ((prog m).from g₀).mach.Exec mm H) : ∃ E LE stE, Behind m mm H E LE stE := by
  obtain ⟨mE, E, hE, -, hc, hI⟩ := (client m).decompose MapConc.prog h
  obtain ⟨gh, hg, rfl, hF⟩ := MapConc.prog.simulate_family MapConc.mapSpec MapConc.I (fun x => MapConc.inv_init (h0 x))
    (fun g v gh i op hg hI hv hst => MapConc.inv_invoke hg hI hv hst) (fun g v gh i op s c g' x hg hI hv hs => MapConc.inv_step hg hI hv hs)
    (fun g v gh i op r hg hI hv hnd => by
      rcases (hI.fin i op r hv).1 with h | ⟨h, n, h1, h2⟩ | h
      · exact Or.inl ⟨h, MapConc.inv_ret hg hI hv hnd rfl rfl rfl rfl rfl⟩
      · exact Or.inr ⟨n, h, h1.1, MapConc.inst_le hg h1, h2, MapConc.inv_ret hg hI hv hnd rfl rfl rfl rfl rfl⟩
      · exact absurd h hnd) hE
  obtain ⟨LE, stE, hL, hno, ho⟩ := hg.linearization_effects
  have hist := (MapConc.prog.family.from g₀).hist hE
  refine ⟨gh.hist, LE, stE, hI, hL, ?_, ?_, ?_, ?_, ?_⟩
  · intro i t o hi
    obtain ⟨x, hx⟩ := (hist.1 _ _).mp hi
    exact coupled_part (hc i) hx
  · intro j o o' h1 h2
    obtain ⟨x, hx⟩ := (hist.1 _ _).mp h1
    obtain ⟨x', hx'⟩ := (hist.1 _ _).mp h2
    rw [hx] at hx'
    simpa using congrArg (fun z => z.map (·.1)) hx'
  · intro i op r hv
    have hci := hc i
    have key : ∃ tr : Tr V, (client m).Script op tr ∧ (client m).next op tr = .inr r ∧ ∀ t, mE.pc (Nat.pair i t) = subs tr .idle t := by
      simp only [Conf.view] at hv
      cases hp : mm.pc i with
      | idle => rw [hp] at hv; simp [Proc.view] at hv
      | «at» op s => rw [hp] at hv; simp [Proc.view] at hv
      | ret op' r' =>
        rw [hp] at hv hci
        simp only [Proc.view, Option.some.injEq, Prod.mk.injEq, Sum.inr.injEq] at hv
        obtain ⟨rfl, rfl⟩ := hv
        obtain ⟨tr, h0, h1, h2⟩ := hci
        exact ⟨tr, h0, h1, h2⟩
      | done op' r' =>
        rw [hp] at hv hci
        simp only [Proc.view, Option.some.injEq, Prod.mk.injEq, Sum.inr.injEq] at hv
        obtain ⟨rfl, rfl⟩ := hv
        obtain ⟨tr, h0, h1, h2⟩ := hci
        exact ⟨tr, h0, h1, h2⟩
    obtain ⟨tr, h0, h1, h2⟩ := key
    refine ⟨tr, h1, h0, ?_, ?_⟩
    · intro t o r' ht
      have hd : mE.pc (Nat.pair i t) = .done o r' := by rw [h2, subs, ht]
      exact ⟨(hist.1 _ _).mpr ⟨.inr r', by simp [Conf.view, hd, Proc.view]⟩, (MapConc.prog.family.from g₀).done_mem hE hd⟩
    · intro t o hi
      by_contra hlt
      obtain ⟨x, hx⟩ := (hist.1 _ _).mp hi
      have hd : mE.pc (Nat.pair i t) = .idle := by
        rw [h2, subs, List.getElem?_eq_none (by omega)]; simp
      simp [Conf.view, hd, Proc.view] at hx
  · rintro j ⟨x, op⟩ r h1 h2
    have hv := (MapConc.prog.family.from g₀).ret_view hE h1 h2
    obtain ⟨gx, hgx, hIx, hR⟩ := hF.2.2 x
    have hfin := (hIx.fin j op r (View.at_mine hv)).2
    have hG := ginv_reach hg
    refine MapConc.resOk_mono ?_ ?_ hfin
    · rintro k y ⟨n, q1, q2⟩
      have hle : n ≤ cnt x gh.log gh.log.length := by rw [← hR.len]; exact MapConc.inst_le hgx q1
      obtain ⟨n', p1, -, p2, -⟩ := hR.inst hg hv q1 (hG.startLe j) hle
      obtain ⟨n'', a1, a2, -⟩ := ho j n' p1
      exact ⟨n'', a1, by rw [a2, p2, q2]⟩
    · rintro k w ⟨c, n, o, r', q1, q2, q3, q4⟩
      rw [hR.log] at q1
      obtain ⟨d, d1, d2⟩ := plog_get q1
      obtain ⟨n', p1, p3, p2, -⟩ := hR.inst hg hv q2 (hG.logTime _ _ _ _ d1).1 (by rw [d2]; exact q3)
      obtain ⟨n'', a1, a2, a3⟩ := ho j n' p1
      obtain ⟨e, e1, e2⟩ := a3 d _ d1 p3
      exact ⟨n'', e, _, _, a1, by rw [a2, p2, q4], e2, e1⟩
  · rintro i op tr ⟨x, o⟩ s hp hcalm e he hid
    have hci := hc i
    rw [hp] at hci
    obtain ⟨-, -, hs⟩ := hci
    have hv : mE.view (Nat.pair i tr.length) = some ((x, o), .inl s) := by simp [Conf.view, hs, subs, Proc.view]
    obtain ⟨gx, hgx, hIx, hR⟩ := hF.2.2 x
    have h1 := hcalm _ _ _ (hIx.floc _ _ _ (View.at_mine hv))
    rw [(hR.mine _ _ _ hv).1] at h1
    rw [← hid] at h1
    cases hst : gh.st e.1 with
    | invoked o' => exact hno e he o' hst
    | _ => rw [hst] at h1; simp [Status.strip] at h1

/-! ## The effects -/

/-- The operation of a call. -/
def opOf (mm : Cf V) (i : Nat) : SOp V :=
  match mm.view i with
  | some (op, _) => op
  | none => .load []

/-- The effect of a call of a shard. -/
def lift (mm : Cf V) (e : Nat × (Nat × BOp V) × BRes V) : Nat × SOp V × SRes V :=
  ((Nat.unpair e.1).1, effect (opOf mm (Nat.unpair e.1).1) e.2.1.2 e.2.2)

section
variable {m : Shape} {mm : Cf V} {H : List (Ev (SOp V) (SRes V))} {E : List (Ev (Nat × BOp V) (BRes V))}
  {LE : List (Nat × (Nat × BOp V) × BRes V)} {stE : Nat → Nat → M Bytes V}

theorem Behind.inv (B : Behind m mm H E LE stE) {e : Nat × (Nat × BOp V) × BRes V} (he : e ∈ LE) :
    Ev.inv (Nat.pair (Nat.unpair e.1).1 (Nat.unpair e.1).2) e.2.1 ∈ E := by
  rw [Nat.pair_unpair]; exact B.lin.invoked e he

theorem Behind.mem_part (B : Behind m mm H E LE stE) {e : Nat × (Nat × BOp V) × BRes V} (he : e ∈ LE) :
    Part m (opOf mm (Nat.unpair e.1).1) (Nat.unpair e.1).2 e.2.1 := by
  obtain ⟨op, z, h1, h2⟩ := B.part _ _ _ (B.inv he)
  rwa [opOf, h1]

/-- The calls of shards made by the call `i`, in order. -/
def mine (LE : List (Nat × (Nat × BOp V) × BRes V)) (i : Nat) : List (Nat × (Nat × BOp V) × BRes V) :=
  LE.filter fun e => (Nat.unpair e.1).1 = i

theorem Behind.times (B : Behind m mm H E LE stE) (i : Nat) :
    (mine LE i).map (fun e => (Nat.unpair e.1).2) = List.range (mine LE i).length := by
  have := range_of_closed ((mine LE i).map fun e => (Nat.unpair e.1).2) ?_ ?_
  · rwa [List.length_map] at this
  · rw [List.pairwise_map]
    have h1 : LE.Pairwise fun a b => a.1 ≠ b.1 := by
      have := B.lin.once
      rwa [List.Nodup, List.pairwise_map] at this
    have h2 := (h1.and B.lin.order).filter fun e => decide ((Nat.unpair e.1).1 = i)
    refine List.Pairwise.imp_of_mem ?_ h2
    rintro a b ha hb ⟨hne, hB⟩
    replace ha := List.mem_filter.mp ha
    replace hb := List.mem_filter.mp hb
    simp only [decide_eq_true_eq] at ha hb
    by_contra hlt
    rcases Nat.lt_or_ge (Nat.unpair b.1).2 (Nat.unpair a.1).2 with hlt | hge
    · have := B.inside.serial i _ _ a.2.1 hlt (by rw [← ha.2]; exact B.inv ha.1)
      rw [← ha.2, Nat.pair_unpair, ha.2, ← hb.2, Nat.pair_unpair] at this
      exact hB this
    · apply hne
      rw [← Nat.pair_unpair a.1, ← Nat.pair_unpair b.1, ha.2, hb.2, show (Nat.unpair a.1).2 = (Nat.unpair b.1).2 by omega]
  · intro t ht t' hlt
    simp only [List.mem_map, mine, List.mem_filter, decide_eq_true_eq] at ht ⊢
    obtain ⟨e, ⟨h1, h2⟩, rfl⟩ := ht
    obtain ⟨⟨r, hr⟩, -⟩ := before_mem (B.inside.serial i t' _ e.2.1 hlt (by rw [← h2]; exact B.inv h1))
    obtain ⟨o, ho⟩ := B.lin.returned _ _ hr
    exact ⟨_, ⟨ho, by simp⟩, by simp⟩

theorem Behind.nth (B : Behind m mm H E LE stE) {i t : Nat} {e : Nat × (Nat × BOp V) × BRes V} (he : (mine LE i)[t]? = some e) :
    e ∈ LE ∧ e.1 = Nat.pair i t := by
  have hm := List.mem_of_getElem? he
  simp only [mine, List.mem_filter, decide_eq_true_eq] at hm
  refine ⟨hm.1, ?_⟩
  have h1 := congrArg (fun l => l[t]?) (B.times i)
  have h2 := (List.getElem?_eq_some_iff.mp he).1
  simp only [List.getElem?_map, he, Option.map_some, List.getElem?_range h2, Option.some.injEq] at h1
  rw [← Nat.pair_unpair e.1, hm.2, h1]

theorem Behind.nth_part (B : Behind m mm H E LE stE) {i t : Nat} {e : Nat × (Nat × BOp V) × BRes V} (he : (mine LE i)[t]? = some e) :
    Part m (opOf mm i) t e.2.1 := by
  obtain ⟨h1, h2⟩ := B.nth he
  have := B.mem_part h1
  simpa [h2] using this

theorem filter_lift (i : Nat) : (LE.map (lift mm)).filter (fun x => x.1 = i) = (mine LE i).map (lift mm) := by
  rw [List.filter_map, mine]
  rfl

theorem Behind.started (B : Behind m mm H E LE stE) {i : Nat} {op : SOp V} (ho : opOf mm i = op) :
    Started op (((mine LE i).map (lift mm)).map fun x => x.2.1) := by
  have hl : ∀ t e, (mine LE i)[t]? = some e → ((lift mm e).2 = effect op e.2.1.2 e.2.2) ∧ Part m op t e.2.1 := by
    intro t e he
    refine ⟨?_, ho ▸ B.nth_part he⟩
    simp [lift, (B.nth he).2, ho]
  rw [List.map_map]
  have keyed : (∀ t o, Part m op t o → t = 0) → (∀ o r, (effect op o r).1 = op) → ((mine LE i).map ((fun x => x.2.1) ∘ lift mm)) <+: [op] := by
    intro h0 h1
    rw [List.prefix_iff_getElem?]
    intro t ht
    rw [List.length_map] at ht
    have he := List.getElem?_eq_getElem ht
    obtain ⟨a1, a2⟩ := hl _ _ he
    have := h0 _ _ a2
    subst this
    simp [a1, h1]
  cases op with
  | mstore data =>
    simp only [Started]
    rw [List.prefix_iff_getElem?]
    intro t ht
    rw [List.length_map] at ht
    have he := List.getElem?_eq_getElem ht
    obtain ⟨a1, k, v, a2, a3⟩ := hl _ _ he
    simp [a1, a2, a3, effect]
  | range f =>
    intro x hx
    simp only [List.mem_map, Function.comp] at hx
    obtain ⟨e, he, rfl⟩ := hx
    obtain ⟨t, ht⟩ := List.getElem?_of_mem he
    rw [(hl _ _ ht).1]
    rfl
  | _ => exact keyed (fun t o ⟨_, _, _, _, h⟩ => h) (fun _ _ => rfl)

/-- The calls of shards of a call that has returned. -/
theorem Behind.returned (B : Behind m mm H E LE stE) {i : Nat} {op : SOp V} {r : SRes V} (hv : mm.view i = some (op, .inr r)) :
    ∃ tr : Tr V, m.next op tr = .inr r ∧ (∀ t o r', tr[t]? = some (o, r') → m.next op (tr.take t) = .inl o) ∧
      mine LE i = (tr.mapIdx fun t x => (Nat.pair i t, x.1, x.2)) ∧ ∀ t o r', tr[t]? = some (o, r') → Ev.ret (Nat.pair i t) r' ∈ E := by
  obtain ⟨tr, h1, h2, h3, h4⟩ := B.ended i op r hv
  refine ⟨tr, h1, h2, ?_, fun t o r' ht => (h3 t o r' ht).2⟩
  -- the `t`-th call
  have hnth : ∀ t e o r', (mine LE i)[t]? = some e → tr[t]? = some (o, r') → e = (Nat.pair i t, o, r') := by
    intro t e o r' he ht
    obtain ⟨e1, e2⟩ := B.nth he
    obtain ⟨t1, t2⟩ := h3 t o r' ht
    obtain ⟨o', ho'⟩ := B.lin.returned _ _ t2
    have hoe : o' = o := B.once _ _ _ (B.lin.invoked _ ho') t1
    subst hoe
    have : e = (Nat.pair i t, o', r') := List.inj_on_of_nodup_map B.lin.once e1 ho' (by rw [e2])
    exact this
  have hlen : (mine LE i).length = tr.length := by
    apply Nat.le_antisymm
    · by_contra hlt
      have hlt : tr.length < (mine LE i).length := by omega
      obtain ⟨e1, e2⟩ := B.nth (List.getElem?_eq_getElem hlt)
      have := B.lin.invoked _ e1
      rw [e2] at this
      exact absurd (h4 _ _ this) (by simp)
    · by_contra hlt
      have hlt : (mine LE i).length < tr.length := by omega
      obtain ⟨t1, t2⟩ := h3 _ _ _ (List.getElem?_eq_getElem hlt)
      obtain ⟨o', ho'⟩ := B.lin.returned _ _ t2
      have hm : (mine LE i).length ∈ (mine LE i).map fun e => (Nat.unpair e.1).2 :=
        List.mem_map.mpr ⟨_, List.mem_filter.mpr ⟨ho', by simp⟩, by simp⟩
      rw [B.times] at hm
      simp at hm
  apply List.ext_getElem?
  intro t
  rw [List.getElem?_mapIdx]
  rcases Nat.lt_or_ge t tr.length with ht | ht
  · rw [List.getElem?_eq_getElem ht, List.getElem?_eq_getElem (hlen ▸ ht)]
    simp only [Option.map_some, Option.some.injEq]
    exact hnth t _ _ _ (List.getElem?_eq_getElem (hlen ▸ ht)) (List.getElem?_eq_getElem ht)
  · rw [List.getElem?_eq_none ht, List.getElem?_eq_none (hlen ▸ ht)]
    rfl

theorem Behind.mem_of_tr (B : Behind m mm H E LE stE) {i : Nat} {tr : Tr V} (h : mine LE i = tr.mapIdx fun t x => (Nat.pair i t, x.1, x.2))
    {t : Nat} {o : Nat × BOp V} {r : BRes V} (ht : tr[t]? = some (o, r)) : (Nat.pair i t, o, r) ∈ LE := by
  have : (mine LE i)[t]? = some (Nat.pair i t, o, r) := by rw [h, List.getElem?_mapIdx, ht]; rfl
  exact (B.nth this).1

theorem Behind.no_panic (B : Behind m mm H E LE stE) {e : Nat × (Nat × BOp V) × BRes V} (he : e ∈ LE) : e.2.2 ≠ .panic := by
  obtain ⟨n, hn⟩ := List.getElem?_of_mem he
  exact step_no_panic (B.lin.legal n _ _ _ hn)

theorem Behind.effects (hg : m.Good) (B : Behind m mm H E LE stE) {i : Nat} {op : SOp V} {r : SRes V} (hv : mm.view i = some (op, .inr r)) :
    Effects op r (((mine LE i).map (lift mm)).map fun x => x.2) := by
  obtain ⟨tr, h1, h2, h3, -⟩ := B.returned hv
  have ho : opOf mm i = op := by simp [opOf, hv]
  have hnp : ∀ x ∈ tr, x.2 ≠ .panic := by
    intro x hx
    obtain ⟨t, ht⟩ := List.getElem?_of_mem hx
    exact B.no_panic (B.mem_of_tr h3 ht)
  have hl : ((mine LE i).map (lift mm)).map (fun x => x.2) = tr.map fun x => effect op x.1.2 x.2 := by
    rw [h3]
    apply List.ext_getElem?
    intro t
    simp only [List.getElem?_map, List.getElem?_mapIdx, Option.map_map]
    cases tr[t]? <;> simp [lift, ho]
  rw [hl]
  exact effects_of hg h1 h2 hnp

theorem Behind.during (B : Behind m mm H E LE stE) {i t n : Nat} {o : Nat × BOp V} (hi : Ev.inv (Nat.pair i t) o ∈ E)
    (h : During E LE (Nat.pair i t) n) : During H (LE.map (lift mm)) i n := by
  refine ⟨by simpa using h.1, ?_, ?_⟩
  · intro k x hx hk hB
    simp only [List.getElem?_map, Option.map_eq_some_iff] at hx
    obtain ⟨e, he, rfl⟩ := hx
    refine h.2.1 k e he hk ?_
    have := B.inside.before _ (Nat.unpair e.1).1 _ _ _ _ hB hi (B.inv (List.mem_of_getElem? he))
    rwa [Nat.pair_unpair] at this
  · intro k x hx hk hB
    simp only [List.getElem?_map, Option.map_eq_some_iff] at hx
    obtain ⟨e, he, rfl⟩ := hx
    refine h.2.2 k e he hk ?_
    have := B.inside.before (Nat.unpair e.1).1 _ _ _ _ _ hB (B.inv (List.mem_of_getElem? he)) hi
    rwa [Nat.pair_unpair] at this

/-- A key is only in its own shard. -/
theorem Behind.home (B : Behind m mm H E LE stE) : ∀ n, n ≤ LE.length → ∀ x k, stE n x k ≠ none → m.index k = x := by
  intro n
  induction n with
  | zero => intro _ x k; rw [B.lin.init]; simp [famSpec, MapConc.mapSpec]
  | succ n ih =>
    intro hn x k
    have hlt : n < LE.length := hn
    obtain ⟨e, he⟩ : ∃ e, LE[n]? = some e := ⟨_, List.getElem?_eq_getElem hlt⟩
    obtain ⟨h1, h2⟩ := B.lin.legal n _ _ _ he
    have hp := B.mem_part (List.mem_of_getElem? he)
    by_cases hx : x = e.2.1.1
    · intro hne
      by_contra hk
      have hold : stE n x k = none := by
        by_contra h; exact hk (ih (by omega) x k h)
      have h1 : MapConc.Does (stE n e.2.1.1) e.2.1.2 e.2.2 (stE (n + 1) e.2.1.1) := h1
      rw [← hx] at h1
      -- the operation is on another key
      have hoth : ∀ k' y, m.index k' = x → stE (n + 1) x = (stE n x).put k' y → False := by
        intro k' y a1 a2
        have : k ≠ k' := by rintro rfl; exact hk a1
        rw [a2] at hne
        simp [MapConc.M.put, this, hold] at hne
      have hput : (∃ k' y, m.index k' = x ∧ stE (n + 1) x = (stE n x).put k' y) ∨ stE (n + 1) x = stE n x := by
        rw [hx] at h1
        have := part_puts hp h1
        rwa [← hx] at this
      rcases hput with ⟨k', y, a1, a2⟩ | a
      · exact hoth k' y a1 a2
      · rw [a] at hne; exact hne hold
    · rw [h2 x hx]
      exact ih (by omega) x k

end

end Verif.XSync.SharedConc

import Verif.XSync.SharedSpec
import Mathlib.Data.List.Induction
/-! # Property theorems for `xsync.SharedMap` (C25, C26, C27, C82) -/
namespace Verif.XSync.Shared
open Verif.Go Verif.XSync.Map

variable {V : Type}

/-! ## Shard count -/

/-- One smearing step on natural numbers. -/
theorem smear_testBit (x n i : Nat) : (x ||| (x >>> n)).testBit i = (x.testBit i || x.testBit (i + n)) := by
  rw [Nat.testBit_or, Nat.testBit_shiftRight, Nat.add_comm]

/-- All bits at or below a set bit. -/
def smear (x : Nat) : Nat :=
  let x := x ||| (x >>> 1)
  let x := x ||| (x >>> 2)
  let x := x ||| (x >>> 4)
  let x := x ||| (x >>> 8)
  x ||| (x >>> 16)

theorem testBit_false_of_lt {x i : Nat} (hx : x < 2^32) (hi : 32 ≤ i) : x.testBit i = false :=
  Nat.testBit_lt_two_pow (Nat.lt_of_lt_of_le hx (Nat.pow_le_pow_right (by decide) hi))

theorem smear_step {x y m : Nat} (h : ∀ i, y.testBit i = true ↔ ∃ j, j < m ∧ x.testBit (i + j) = true) :
    ∀ i, (y ||| (y >>> m)).testBit i = true ↔ ∃ j, j < 2 * m ∧ x.testBit (i + j) = true := by
  intro i
  rw [smear_testBit, Bool.or_eq_true, h, h]
  constructor
  · rintro (⟨j, hj, hx⟩ | ⟨j, hj, hx⟩)
    · exact ⟨j, by omega, hx⟩
    · exact ⟨m + j, by omega, by rw [← Nat.add_assoc]; exact hx⟩
  · rintro ⟨j, hj, hx⟩
    by_cases hm : j < m
    · exact Or.inl ⟨j, hm, hx⟩
    · exact Or.inr ⟨j - m, by omega, by rw [Nat.add_assoc, Nat.add_sub_cancel' (by omega)]; exact hx⟩

theorem smear_testBit_iff (x i : Nat) : (smear x).testBit i = true ↔ ∃ j, j < 32 ∧ x.testBit (i + j) = true := by
  have h0 : ∀ i, x.testBit i = true ↔ ∃ j, j < 1 ∧ x.testBit (i + j) = true := by
    intro i
    constructor
    · intro h; exact ⟨0, by decide, h⟩
    · rintro ⟨j, hj, h⟩; have : j = 0 := by omega
      subst this; exact h
  exact smear_step (smear_step (smear_step (smear_step (smear_step h0)))) i

/-- For a number with exactly `L` bits, smearing gives `2^L - 1`. -/
theorem smear_eq {x L : Nat} (hL : L ≤ 32) (hlt : x < 2^L) (hge : L ≠ 0 → 2^(L-1) ≤ x) : smear x = 2^L - 1 := by
  apply Nat.eq_of_testBit_eq
  intro i
  rw [Nat.testBit_two_pow_sub_one, Bool.eq_iff_iff, smear_testBit_iff, decide_eq_true_iff]
  constructor
  · rintro ⟨j, _, hb⟩
    by_contra hi
    rw [Nat.testBit_lt_two_pow (Nat.lt_of_lt_of_le hlt (Nat.pow_le_pow_right (by decide) (by omega)))] at hb
    simp at hb
  · intro hi
    refine ⟨L - 1 - i, by omega, ?_⟩
    rw [Nat.add_sub_cancel' (by omega)]
    have hx : x / 2^(L-1) = 1 := by
      have h1 := hge (by omega)
      have h2 : 2^L = 2 * 2^(L-1) := by rw [← Nat.pow_succ']; congr 1; omega
      apply Nat.le_antisymm
      · have : x / 2^(L-1) < 2 := by rw [Nat.div_lt_iff_lt_mul (Nat.two_pow_pos _)]; omega
        omega
      · rw [Nat.le_div_iff_mul_le (Nat.two_pow_pos _)]; omega
    rw [Nat.testBit_eq_decide_div_mod_eq, hx]; rfl

theorem bitlength (x : Nat) : ∃ L, x < 2^L ∧ (L ≠ 0 → 2^(L-1) ≤ x) := by
  by_cases hx : x = 0
  · exact ⟨0, by simp [hx], by simp⟩
  · exact ⟨x.log2 + 1, Nat.lt_log2_self, fun _ => by simpa using Nat.log2_self_le hx⟩

theorem getShardBlockSize_toNat (x : UInt32) (hx : x ≠ 0) : (getShardBlockSize x).toNat = (smear (x.toNat - 1) + 1) % 2^32 := by
  have h1 : (x - 1).toNat = x.toNat - 1 := by
    have : (1 : UInt32) ≤ x := by
      rw [UInt32.le_iff_toNat_le]
      have : x.toNat ≠ 0 := fun h => hx (by rw [← UInt32.toNat_inj]; simpa using h)
      simp; omega
    rw [UInt32.toNat_sub_of_le _ _ this]; rfl
  simp [getShardBlockSize, smear, UInt32.toNat_add, UInt32.toNat_or, UInt32.toNat_shiftRight, h1]

/-- C26: for `1 ≤ n ≤ 2^31` the number of shards is the least power of two that is not below `n`. -/
theorem C26_count (x : UInt32) (h1 : 1 ≤ x.toNat) (h2 : x.toNat ≤ 2^31) :
    ∃ L, L ≤ 31 ∧ (getShardBlockSize x).toNat = 2^L ∧ x.toNat ≤ 2^L ∧ ∀ L', x.toNat ≤ 2^L' → 2^L ≤ 2^L' := by
  obtain ⟨L, hlt, hge⟩ := bitlength (x.toNat - 1)
  have hL : L ≤ 31 := by
    by_contra hc
    have := hge (by omega)
    have : 2^31 ≤ 2^(L-1) := Nat.pow_le_pow_right (by decide) (by omega)
    omega
  refine ⟨L, hL, ?_, by omega, ?_⟩
  · rw [getShardBlockSize_toNat x (by rintro rfl; simp at h1), smear_eq (by omega) hlt hge]
    have : 2^L ≤ 2^31 := Nat.pow_le_pow_right (by decide) hL
    have hp := Nat.two_pow_pos L
    rw [Nat.sub_add_cancel hp, Nat.mod_eq_of_lt (by omega)]
  · intro L' hL'
    apply Nat.pow_le_pow_right (by decide)
    by_contra hc
    have := hge (by omega)
    have : 2^L' ≤ 2^(L-1) := Nat.pow_le_pow_right (by decide) (by omega)
    omega

example : (5 : UInt32).toNat = 5 ∧ (getShardBlockSize 5).toNat = 8 ∧ (getShardBlockSize 8).toNat = 8 ∧ (getShardBlockSize 9).toNat = 16 := by
  refine ⟨rfl, rfl, rfl, rfl⟩

/-- For larger counts the computation overflows to zero. -/
theorem count_overflow (x : UInt32) (h : 2^31 < x.toNat) : getShardBlockSize x = 0 := by
  have hx := x.toNat_lt
  rw [← UInt32.toNat_inj, getShardBlockSize_toNat x (by rintro rfl; simp at h), smear_eq (L := 32) (by decide) (by omega) (by intro _; omega)]
  rfl

/-- C26: the shard index of every key is within range. -/
theorem C26_index (opts : List Int) (m : SharedMap V) (hm : newSharedMap opts = some m) (hne : m.b ≠ []) (key : Bytes) :
    m.index key < m.b.length := by
  simp only [newSharedMap] at hm
  split at hm
  · simp at hm
  · rename_i hs
    simp only [Option.some.injEq] at hm
    subst hm
    simp only [ne_eq, List.replicate_eq_nil_iff] at hne
    simp only [SharedMap.index, List.length_replicate, UInt32.toNat_and]
    generalize opts.foldl _ _ = size at *
    have h1 : 1 ≤ (getShardBlockSize size) := by
      rw [UInt32.le_iff_toNat_le]; simp; omega
    have h2 : (getShardBlockSize size - 1).toNat = (getShardBlockSize size).toNat - 1 := by
      rw [UInt32.toNat_sub_of_le _ _ h1]; rfl
    rw [h2]
    have := Nat.and_le_right (n := (fnv32 key).toNat) (m := (getShardBlockSize size).toNat - 1)
    omega

example : ∃ m : SharedMap Unit, newSharedMap [5] = some m ∧ m.b ≠ [] ∧ m.index [97] ≠ m.index [98] := ⟨_, rfl, by decide, by decide⟩

/-- C26: `NewSharedMap` panics exactly for a requested count of 0 (modulo 2^32); otherwise it allocates that many empty shards. -/
theorem C26_new (opts : List Int) : newSharedMap (V := V) opts =
    (let size := (opts.getLast?.map withShardBlockSize).getD 32
     if size = 0 then none else some ⟨List.replicate (getShardBlockSize size).toNat State.zero, getShardBlockSize size, getShardBlockSize size - 1⟩) := by
  have hf : opts.foldl (fun _ x => withShardBlockSize x) 32 = (opts.getLast?.map withShardBlockSize).getD 32 := by
    induction opts using List.reverseRecOn with
    | nil => rfl
    | append_singleton l a _ => simp
  simp only [newSharedMap, hf]
  have : ∀ size : UInt32, size ≤ 0 ↔ size = 0 := by
    intro size
    rw [UInt32.le_iff_toNat_le, ← UInt32.toNat_inj]
    simp
  simp only [this]

/-- Requests of 5 and 32 give 8 and 32 shards, 0 panics. -/
example : (newSharedMap (V := Unit) [5]).map (·.b.length) = some 8 ∧ (newSharedMap (V := Unit) []).map (·.b.length) = some 32 ∧
    newSharedMap (V := Unit) [0] = none := by
  refine ⟨?_, ?_, rfl⟩
  · simp [C26_new, withShardBlockSize, getShardBlockSize]
  · simp [C26_new, getShardBlockSize]

/-- C26: the requested count is used as it is for `1 ≤ n ≤ 2^31`. -/
theorem C26_option (n : Int) (h1 : 1 ≤ n) (h2 : n ≤ 2^31) : ((withShardBlockSize n).toNat : Int) = n := by
  simp only [withShardBlockSize]
  have h3 : n % 2^32 = n := Int.emod_eq_of_lt (by omega) (by omega)
  rw [h3, UInt32.toNat_ofNat']
  omega


example : (withShardBlockSize 5).toNat = 5 := by decide

/-- The contents of a `SharedMap`. -/
def SharedMap.abs (m : SharedMap V) : M Bytes V := fun k => (m.b[m.index k]?).bind fun s => s.abs k

/-- Proof only: part of an invariant or simulation; models no code. -/
structure SWF (m : SharedMap V) : Prop where
  len : m.b.length = m.shardBlockSize.toNat
  inrange : ∀ k, m.index k < m.b.length
  wf : ∀ (j : Nat) (s : State Bytes V), m.b[j]? = some s → WF s
  own : ∀ (j : Nat) (s : State Bytes V) (k : Bytes), m.b[j]? = some s → s.abs k ≠ none → m.index k = j

theorem onShard_spec {R : Type} {m : SharedMap V} (h : SWF m) (key : Bytes) (f : State Bytes V → Option (State Bytes V × R))
    (P : Option V → Option V → R → Prop)
    (hf : ∀ s, WF s → ∃ s' r, f s = some (s', r) ∧ WF s' ∧ (∀ k, k ≠ key → s'.abs k = s.abs k) ∧ P (s.abs key) (s'.abs key) r) :
    ∃ m' r, m.onShard key f = some (m', r) ∧ SWF m' ∧ (∀ k, k ≠ key → m'.abs k = m.abs k) ∧ P (m.abs key) (m'.abs key) r := by
  have hi := h.inrange key
  obtain ⟨s', r, e1, e2, e3, e4⟩ := hf m.b[m.index key] (h.wf _ _ (List.getElem?_eq_getElem hi))
  refine ⟨{ m with b := m.b.set (m.index key) s' }, r, ?_, ?_, ?_, ?_⟩
  · simp [SharedMap.onShard, SharedMap.getShard, List.getElem?_eq_getElem hi, e1]
  · constructor
    · simp [h.len]
    · intro k; simpa [SharedMap.index] using h.inrange k
    · intro j s hj
      by_cases hij : m.index key = j
      · subst hij
        simp only [List.getElem?_set_self hi, Option.some.injEq] at hj; subst hj; exact e2
      · rw [List.getElem?_set_ne hij] at hj; exact h.wf j s hj
    · intro j s k hj hk
      have hx : (SharedMap.index { m with b := m.b.set (m.index key) s' } k) = m.index k := rfl
      rw [hx]
      by_cases hij : m.index key = j
      · subst hij
        simp only [List.getElem?_set_self hi, Option.some.injEq] at hj
        subst hj
        by_cases hkk : k = key
        · subst hkk; rfl
        · rw [e3 k hkk] at hk
          exact h.own _ _ k (List.getElem?_eq_getElem hi) hk
      · rw [List.getElem?_set_ne hij] at hj
        exact h.own j s k hj hk
  · intro k hk
    have hx : (SharedMap.index { m with b := m.b.set (m.index key) s' } k) = m.index k := rfl
    simp only [SharedMap.abs, hx]
    by_cases hij : m.index key = m.index k
    · rw [← hij, List.getElem?_set_self hi, List.getElem?_eq_getElem hi]
      simp only [Option.bind_some]
      exact e3 k hk
    · rw [List.getElem?_set_ne hij]
  · have hx : (SharedMap.index { m with b := m.b.set (m.index key) s' } key) = m.index key := rfl
    simp only [SharedMap.abs, hx, List.getElem?_set_self hi, List.getElem?_eq_getElem hi, Option.bind_some]
    exact e4

theorem abs_set {a b : M Bytes V} {k : Bytes} {v : V} (h : ∀ k', k' ≠ k → b k' = a k') (hk : b k = some v) : b = a.set k v := by
  funext k'
  by_cases e : k' = k
  · subst e; simp [M.set, hk]
  · simp [M.set, e, h k' e]

theorem abs_del {a b : M Bytes V} {k : Bytes} (h : ∀ k', k' ≠ k → b k' = a k') (hk : b k = none) : b = a.del k := by
  funext k'
  by_cases e : k' = k
  · subst e; simp [M.del, hk]
  · simp [M.del, e, h k' e]

theorem abs_same {a b : M Bytes V} {k : Bytes} (h : ∀ k', k' ≠ k → b k' = a k') (hk : b k = a k) : b = a := by
  funext k'
  by_cases e : k' = k
  · subst e; exact hk
  · exact h k' e

theorem load_spec {s : State Bytes V} (h : WF s) (k : Bytes) : WF (Map.load s k).1 ∧ (Map.load s k).1.abs = s.abs ∧ (Map.load s k).2 = s.abs k := by
  obtain ⟨s', r, e1, e2, e3⟩ := Map.exec_spec h (.load k) trivial
  simp only [Map.exec, Option.some.injEq, Prod.mk.injEq] at e1
  obtain ⟨rfl, rfl⟩ := e1
  generalize hs : s.abs = a at e3
  generalize ht : (Map.load s k).1.abs = t at e3
  generalize hr : (Map.load s k).2 = r at e3
  cases e3
  exact ⟨e2, rfl, rfl⟩

theorem store_spec {m : SharedMap V} (h : SWF m) (k : Bytes) (v : V) : ∃ m', m.store k v = some m' ∧ SWF m' ∧ m'.abs = m.abs.set k v := by
  obtain ⟨m', r, e1, e2, e3, e4⟩ := onShard_spec h k (fun s => (Map.store s k v).map fun s => (s, ())) (fun _ b _ => b = some v) (by
    intro s hs
    obtain ⟨s', r, e1, e2, e3⟩ := Map.exec_spec hs (.store k v) trivial
    simp only [Map.exec, Option.map_eq_some_iff, Prod.mk.injEq] at e1
    obtain ⟨s1, e1, rfl, rfl⟩ := e1
    refine ⟨s1, (), by simp [e1], e2, ?_⟩
    generalize s.abs = a at e3 ⊢
    generalize s1.abs = t at e3 ⊢
    cases e3
    exact ⟨fun k' hk => by simp [M.set, hk], by simp [M.set]⟩)
  exact ⟨m', by simp [SharedMap.store, e1], e2, abs_set e3 e4⟩

theorem mstore_spec (data : List (Bytes × V)) : ∀ {m : SharedMap V}, SWF m → (data.map (·.1)).Nodup →
    ∃ m', m.mstore data = some m' ∧ SWF m' ∧ m'.abs = fun k => (GMap.get data k).or (m.abs k) := by
  induction data with
  | nil => intro m h _; exact ⟨m, rfl, h, by funext k; simp [GMap.get]⟩
  | cons x data ih =>
    obtain ⟨k, v⟩ := x
    intro m h hn
    simp only [List.map_cons, List.nodup_cons] at hn
    obtain ⟨m1, e1, e2, e3⟩ := store_spec h k v
    obtain ⟨m2, f1, f2, f3⟩ := ih e2 hn.2
    refine ⟨m2, by simp [SharedMap.mstore, e1, f1], f2, ?_⟩
    rw [f3, e3]
    funext k'
    by_cases hk : k' = k
    · subst hk
      have : GMap.get data k' = none := by
        cases hg : GMap.get data k' with
        | none => rfl
        | some w => exact absurd (List.mem_map.2 ⟨_, GMap.mem_of_get hg, rfl⟩) hn.1
      simp [GMap.get, this, M.set]
    · have : ¬ k = k' := fun e => hk e.symm
      simp [GMap.get, M.set, hk, this]

/-! ### Range -/

theorem callsUntil_append (f : List (Bytes × V) → Bytes × V → Bool) (calls : List (Bytes × V)) : ∀ (l pre : List (Bytes × V)),
    callsUntil f (calls ++ pre) l = calls ++ callsUntil (fun pre x => f (calls ++ pre) x) pre l := by
  intro l
  induction l with
  | nil => intro pre; rfl
  | cons x l ih =>
    intro pre
    simp only [callsUntil]
    split
    · rw [List.append_assoc, ih]
    · rw [List.append_assoc]

/-- The loop of `callsUntil` over two lists: the second is used only if the first ended with true. -/
theorem callsUntil_two (f : List (Bytes × V) → Bytes × V → Bool) (l1 l2 : List (Bytes × V)) : ∀ (calls pre : List (Bytes × V)),
    (pre ≠ [] → lastResult f calls pre = true) →
    (lastResult f calls (callsUntil (fun pre x => f (calls ++ pre) x) pre l1) = true →
      callsUntil f (calls ++ pre) (l1 ++ l2) = callsUntil f (calls ++ callsUntil (fun pre x => f (calls ++ pre) x) pre l1) l2) ∧
    (lastResult f calls (callsUntil (fun pre x => f (calls ++ pre) x) pre l1) = false →
      callsUntil f (calls ++ pre) (l1 ++ l2) = calls ++ callsUntil (fun pre x => f (calls ++ pre) x) pre l1) := by
  induction l1 with
  | nil =>
    intro calls pre hp
    simp only [callsUntil, List.nil_append]
    have : lastResult f calls pre = true := by
      by_cases h : pre = []
      · subst h; rfl
      · exact hp h
    simp [this]
  | cons x l ih =>
    intro calls pre hp
    rcases Bool.eq_false_or_eq_true (f (calls ++ pre) x) with hf | hf
    · have := ih calls (pre ++ [x]) (by intro _; simp [lastResult, hf])
      simpa [callsUntil, hf] using this
    · have : lastResult f calls (pre ++ [x]) = false := by simp [lastResult, hf]
      simp [callsUntil, hf, this]

theorem rangeLoop_spec (fn : List (Bytes × V) → Bytes × V → Bool) (order : Nat → GMap Bytes Nat → List (Bytes × Nat))
    (ho : ∀ i m, (order i m).Perm m) (b : List (State Bytes V)) : ∀ (i : Nat) (calls : List (Bytes × V)), (∀ s ∈ b, WF s) →
    (∀ (j j' : Nat) s s' k, b[j]? = some s → b[j']? = some s' → s.abs k ≠ none → s'.abs k ≠ none → j = j') →
    (rangeLoop fn order i calls b).1.length = b.length ∧
    (∀ (j : Nat) (s' : State Bytes V), (rangeLoop fn order i calls b).1[j]? = some s' → ∃ s, b[j]? = some s ∧ WF s' ∧ s'.abs = s.abs) ∧
    ∃ l : List (Bytes × V), (l.map (·.1)).Nodup ∧ (∀ k v, (k, v) ∈ l ↔ ∃ s ∈ b, s.abs k = some v) ∧
      (rangeLoop fn order i calls b).2 = callsUntil fn calls l := by
  induction b with
  | nil => intro i calls _ _; exact ⟨rfl, by intro j s' h; simp [rangeLoop] at h, [], by simp, by simp, rfl⟩
  | cons s b ih =>
    intro i calls hw hown
    have hws := hw s (by simp)
    have hwb : ∀ s ∈ b, WF s := fun s hs => hw s (by simp [hs])
    have hownb : ∀ (j j' : Nat) s s' k, b[j]? = some s → b[j']? = some s' → s.abs k ≠ none → s'.abs k ≠ none → j = j' := by
      intro j j' s1 s2 k h1 h2 h3 h4
      have := hown (j+1) (j'+1) s1 s2 k (by simpa using h1) (by simpa using h2) h3 h4
      omega
    obtain ⟨r1, r2, l, r3, r4, r5⟩ := Map.range_spec hws (fun pre x => fn (calls ++ pre) x) (order i) (ho i)
    -- the remaining shards, whether they are visited or not
    have two := fun l2 => callsUntil_two fn l l2 calls [] (by simp)
    simp only [List.append_nil] at two
    have combine : ∀ l2 : List (Bytes × V), (l2.map (·.1)).Nodup → (∀ k v, (k, v) ∈ l2 ↔ ∃ s ∈ b, s.abs k = some v) →
        ((l ++ l2).map (·.1)).Nodup ∧ ∀ k v, (k, v) ∈ l ++ l2 ↔ ∃ s' ∈ s :: b, s'.abs k = some v := by
      intro l2 n2 m2
      constructor
      · rw [List.map_append, List.nodup_append]
        refine ⟨r3, n2, ?_⟩
        rintro k hk k' hk' rfl
        simp only [List.mem_map, Prod.exists] at hk hk'
        obtain ⟨k1, v1, hm1, rfl⟩ := hk
        obtain ⟨k2, v2, hm2, rfl⟩ := hk'
        have a1 := (r4 _ _).1 hm1
        obtain ⟨s2, hs2, a2⟩ := (m2 _ _).1 hm2
        obtain ⟨j, hj, hjs⟩ := List.getElem_of_mem hs2
        have := hown 0 (j+1) s s2 k2 (by simp) (by simp [← hjs, hj]) (by rw [a1]; simp) (by rw [a2]; simp)
        omega
      · intro k v
        rw [List.mem_append, r4, m2]
        simp
    simp only [rangeLoop]
    rw [r5]
    generalize hc : callsUntil (fun pre x => fn (calls ++ pre) x) [] l = c at *
    obtain ⟨i1, i2, l2, i3, i4, i5⟩ := ih (i + 1) (calls ++ c) hwb hownb
    obtain ⟨c1, c2⟩ := combine l2 i3 i4
    have t := two l2
    rcases Bool.eq_false_or_eq_true (lastResult fn calls c) with hl | hl
    · rw [if_pos hl]
      refine ⟨by simp [i1], ?_, l ++ l2, c1, c2, by rw [t.1 hl, ← i5]⟩
      intro j s' hj
      cases j with
      | zero => simp only [List.getElem?_cons_zero, Option.some.injEq] at hj; subst hj; exact ⟨s, rfl, r1, r2⟩
      | succ j => simpa using i2 j s' (by simpa using hj)
    · rw [if_neg (by simp [hl])]
      refine ⟨by simp, ?_, l ++ l2, c1, c2, by rw [t.2 hl]⟩
      intro j s' hj
      cases j with
      | zero => simp only [List.getElem?_cons_zero, Option.some.injEq] at hj; subst hj; exact ⟨s, rfl, r1, r2⟩
      | succ j =>
        have hj' : b[j]? = some s' := by simpa using hj
        exact ⟨s', by simpa using hj', hwb s' (List.mem_of_getElem? hj'), rfl⟩

theorem range_spec {m : SharedMap V} (h : SWF m) (fn : List (Bytes × V) → Bytes × V → Bool) (order : Nat → GMap Bytes Nat → List (Bytes × Nat))
    (ho : ∀ i m, (order i m).Perm m) : ∃ m' l, m.range fn order = some (m', callsUntil fn [] l) ∧ SWF m' ∧ m'.abs = m.abs ∧
      (l.map (·.1)).Nodup ∧ ∀ k v, (k, v) ∈ l ↔ m.abs k = some v := by
  obtain ⟨h1, h2, l, h3, h4, h5⟩ := rangeLoop_spec fn order ho m.b 0 [] (by
      intro s hs
      obtain ⟨j, hj, e⟩ := List.getElem_of_mem hs
      exact h.wf j s (by simp [← e, hj])) (by
      intro j j' s s' k e1 e2 e3 e4
      rw [← h.own j s k e1 e3, ← h.own j' s' k e2 e4])
  have hab : SharedMap.abs { m with b := (rangeLoop fn order 0 [] m.b).1 } = m.abs := by
    funext k
    have hx : (SharedMap.index { m with b := (rangeLoop fn order 0 [] m.b).1 } k) = m.index k := rfl
    have hi := h.inrange k
    simp only [SharedMap.abs, hx]
    rw [List.getElem?_eq_getElem (by rw [h1]; exact hi)]
    obtain ⟨s, e1, _, e3⟩ := h2 (m.index k) _ (List.getElem?_eq_getElem (by rw [h1]; exact hi))
    rw [e1]
    simp [e3]
  refine ⟨{ m with b := (rangeLoop fn order 0 [] m.b).1 }, l, ?_, ?_, hab, h3, ?_⟩
  · simp [SharedMap.range, h.len, ← h5]
  · constructor
    · simp [h1, h.len]
    · intro k; have := h.inrange k; simpa [SharedMap.index, h1] using this
    · intro j s hj; obtain ⟨_, _, hw, _⟩ := h2 j s hj; exact hw
    · intro j s k hj hk
      obtain ⟨s0, e1, _, e3⟩ := h2 j s hj
      exact h.own j s0 k e1 (by rw [← e3]; exact hk)
  · intro k v
    rw [h4]
    constructor
    · rintro ⟨s, hs, hv⟩
      obtain ⟨j, hj, e⟩ := List.getElem_of_mem hs
      have hj' : m.b[j]? = some s := by simp [← e, hj]
      have := h.own j s k hj' (by rw [hv]; simp)
      simp [SharedMap.abs, this, hj', hv]
    · intro hv
      simp only [SharedMap.abs] at hv
      rw [List.getElem?_eq_getElem (h.inrange k)] at hv
      exact ⟨_, List.getElem_mem (h.inrange k), by simpa using hv⟩

/-- One operation refines the ordinary map. -/
theorem exec_spec {m : SharedMap V} (h : SWF m) (op : SOp V) (hv : op.Valid) :
    ∃ m' r, exec m op = some (m', r) ∧ SWF m' ∧ SDoes m.abs op m'.abs r := by
  cases op with
  | load k =>
    obtain ⟨m', r, e1, e2, e3, e4, e5⟩ := onShard_spec h k (fun s => some (Map.load s k)) (fun a b r => b = a ∧ r = a) (by
      intro s hs
      obtain ⟨h1, h2, h3⟩ := load_spec hs k
      exact ⟨(Map.load s k).1, (Map.load s k).2, rfl, h1, fun _ _ => by rw [h2], by rw [h2], h3⟩)
    refine ⟨m', .value r, by simp [exec, SharedMap.load, e1], e2, ?_⟩
    rw [abs_same e3 e4, e5]; exact .load _ _
  | has k =>
    obtain ⟨m', r, e1, e2, e3, e4, e5⟩ := onShard_spec h k (fun s => let (s, r) := Map.load s k; some (s, r.isSome)) (fun a b r => b = a ∧ r = a.isSome) (by
      intro s hs
      obtain ⟨h1, h2, h3⟩ := load_spec hs k
      exact ⟨(Map.load s k).1, (Map.load s k).2.isSome, rfl, h1, fun _ _ => by rw [h2], by rw [h2], by rw [h3]⟩)
    refine ⟨m', .bool r, by simp [exec, SharedMap.has, e1], e2, ?_⟩
    rw [abs_same e3 e4, e5]; exact .has _ _
  | store k v =>
    obtain ⟨m', e1, e2, e3⟩ := store_spec h k v
    exact ⟨m', .unit, by simp [exec, e1], e2, by rw [e3]; exact .store _ _ _⟩
  | mstore data =>
    obtain ⟨m', e1, e2, e3⟩ := mstore_spec data h hv
    exact ⟨m', .unit, by simp [exec, e1], e2, by rw [e3]; exact .mstore _ _⟩
  | loadOrStore k v =>
    obtain ⟨m', r, e1, e2, e3, e4⟩ := onShard_spec h k
      (fun s => (Map.loadOrStore s k v).bind fun (s, r) => r.map fun (_, loaded) => (s, !loaded))
      (fun a b r => (a.isSome = true ∧ b = a ∧ r = false) ∨ (a = none ∧ b = some v ∧ r = true)) (by
      intro s hs
      obtain ⟨s', r, e1, e2, e3⟩ := Map.exec_spec hs (.loadOrStore k v) trivial
      simp only [Map.exec, Option.bind_eq_some_iff, Option.map_eq_some_iff, Prod.mk.injEq, Prod.exists] at e1
      obtain ⟨s1, r1, e1, w, b, rfl, rfl, rfl⟩ := e1
      refine ⟨s1, !b, by simp [e1], e2, ?_⟩
      generalize s.abs = a at e3 ⊢
      generalize s1.abs = t at e3 ⊢
      cases e3 with
      | loadOrStore_found _ _ _ hh => exact ⟨fun _ _ => rfl, Or.inl ⟨by simp [hh], rfl, rfl⟩⟩
      | loadOrStore_absent _ _ hh => exact ⟨fun k' hk => by simp [M.set, hk], Or.inr ⟨hh, by simp [M.set], rfl⟩⟩)
    refine ⟨m', .bool r, by simp [exec, SharedMap.loadOrStore, e1], e2, ?_⟩
    rcases e4 with ⟨a1, a2, rfl⟩ | ⟨a1, a2, rfl⟩
    · rw [abs_same e3 a2]; exact .loadOrStore_found _ _ _ a1
    · rw [abs_set e3 a2]; exact .loadOrStore_absent _ _ _ a1
  | computeIfAbsent k f =>
    obtain ⟨m', r, e1, e2, e3, e4⟩ := onShard_spec h k
      (fun s => (Map.computeIfAbsent s k f).bind fun (s, r, c) => r.map fun r => (s, r, c))
      (fun a b r => (∃ w, a = some w ∧ b = a ∧ r = ((w, true), [])) ∨ (a = none ∧ b = some (f k) ∧ r = ((f k, false), [k]))) (by
      intro s hs
      obtain ⟨s', r, e1, e2, e3⟩ := Map.exec_spec hs (.computeIfAbsent k f) trivial
      simp only [Map.exec, Option.bind_eq_some_iff, Option.map_eq_some_iff, Prod.mk.injEq, Prod.exists] at e1
      obtain ⟨s1, r1, c1, e1, w, b, rfl, rfl, rfl⟩ := e1
      refine ⟨s1, ((w, b), c1), by simp [e1], e2, ?_⟩
      generalize s.abs = a at e3 ⊢
      generalize s1.abs = t at e3 ⊢
      cases e3 with
      | computeIfAbsent_found _ _ _ hh => exact ⟨fun _ _ => rfl, Or.inl ⟨w, hh, rfl, rfl⟩⟩
      | computeIfAbsent_absent _ _ hh => exact ⟨fun k' hk => by simp [M.set, hk], Or.inr ⟨hh, by simp [M.set], rfl⟩⟩)
    refine ⟨m', .loaded r.1.1 r.1.2 r.2, by simp [exec, SharedMap.computeIfAbsent, e1], e2, ?_⟩
    rcases e4 with ⟨w, a1, a2, rfl⟩ | ⟨a1, a2, rfl⟩
    · rw [abs_same e3 a2]; exact .computeIfAbsent_found _ _ _ _ a1
    · rw [abs_set e3 a2]; exact .computeIfAbsent_absent _ _ _ a1
  | computeIfPresent k f =>
    obtain ⟨m', r, e1, e2, e3, e4⟩ := onShard_spec h k (fun s => Map.computeIfPresent s k f)
      (fun a b r => (∃ w, a = some w ∧ b = some (f k w) ∧ r = (some (f k w), [(k, w)])) ∨ (a = none ∧ b = a ∧ r = (none, []))) (by
      intro s hs
      obtain ⟨s', r, e1, e2, e3⟩ := Map.exec_spec hs (.computeIfPresent k f) trivial
      simp only [Map.exec, Option.map_eq_some_iff, Prod.mk.injEq, Prod.exists] at e1
      obtain ⟨s1, r1, c1, e1, rfl, rfl⟩ := e1
      refine ⟨s1, (r1, c1), by simp [e1], e2, ?_⟩
      generalize s.abs = a at e3 ⊢
      generalize s1.abs = t at e3 ⊢
      cases e3 with
      | computeIfPresent_found _ _ w hh => exact ⟨fun k' hk => by simp [M.set, hk], Or.inl ⟨w, hh, by simp [M.set], rfl⟩⟩
      | computeIfPresent_absent _ _ hh => exact ⟨fun _ _ => rfl, Or.inr ⟨hh, rfl, rfl⟩⟩)
    refine ⟨m', .present r.1 r.2, by simp [exec, SharedMap.computeIfPresent, e1], e2, ?_⟩
    rcases e4 with ⟨w, a1, a2, rfl⟩ | ⟨a1, a2, rfl⟩
    · rw [abs_set e3 a2]; exact .computeIfPresent_found _ _ _ _ a1
    · rw [abs_same e3 a2]; exact .computeIfPresent_absent _ _ _ a1
  | delete k =>
    obtain ⟨m', r, e1, e2, e3, e4⟩ := onShard_spec h k (fun s => some (Map.delete s k, ())) (fun _ b _ => b = none) (by
      intro s hs
      obtain ⟨h1, h2, _⟩ := Map.loadAndDelete_spec hs k
      exact ⟨Map.delete s k, (), rfl, h1, fun k' hk => by rw [Map.delete, h2]; simp [M.del, hk], by rw [Map.delete, h2]; simp [M.del]⟩)
    refine ⟨m', .unit, by simp [exec, SharedMap.delete, e1], e2, ?_⟩
    rw [abs_del e3 e4]; exact .delete _ _
  | clear =>
    have hcl : ∀ s : State Bytes V, WF (Map.clear s) ∧ (Map.clear s).abs = fun _ => none := by
      intro s
      constructor
      · constructor <;> simp [Map.clear, State.dget, GMap.WF]
      · funext k; simp [State.abs, State.ent, State.dget, Map.clear]
    have hab : m.clear.abs = fun _ => none := by
      funext k
      simp only [SharedMap.abs, SharedMap.clear, List.getElem?_map]
      cases (m.b[SharedMap.index { m with b := m.b.map Map.clear } k]?) with
      | none => rfl
      | some s => simp [(hcl s).2]
    refine ⟨m.clear, .unit, rfl, ?_, by rw [hab]; exact .clear _⟩
    constructor
    · simp [SharedMap.clear, h.len]
    · intro k; simpa [SharedMap.clear, SharedMap.index] using h.inrange k
    · intro j s hj
      simp only [SharedMap.clear, List.getElem?_map, Option.map_eq_some_iff] at hj
      obtain ⟨s0, _, rfl⟩ := hj
      exact (hcl s0).1
    · intro j s k hj hk
      simp only [SharedMap.clear, List.getElem?_map, Option.map_eq_some_iff] at hj
      obtain ⟨s0, _, rfl⟩ := hj
      rw [(hcl s0).2] at hk
      exact absurd rfl hk
  | range f order =>
    obtain ⟨m', l, e1, e2, e3, e4, e5⟩ := range_spec h f order hv
    exact ⟨m', .visited (callsUntil f [] l), by simp [exec, e1], e2, by rw [e3]; exact .range _ _ _ l e4 e5⟩

theorem execAll_spec (ops : List (SOp V)) : ∀ m : SharedMap V, SWF m → (∀ op ∈ ops, op.Valid) →
    ∃ m' rs, execAll m ops = some (m', rs) ∧ SWF m' ∧ SDoesAll m.abs ops m'.abs rs := by
  induction ops with
  | nil => intro s h _; exact ⟨s, [], rfl, h, .nil _⟩
  | cons op ops ih =>
    intro s h hv
    obtain ⟨s', r, e1, e2, e3⟩ := exec_spec h op (hv op (by simp))
    obtain ⟨s'', rs, f1, f2, f3⟩ := ih s' e2 (fun op ho => hv op (by simp [ho]))
    exact ⟨s'', r :: rs, by simp [execAll, e1, f1], f2, .cons e3 f3⟩

theorem new_swf {opts : List Int} {m : SharedMap V} (hm : newSharedMap opts = some m) (hne : m.b ≠ []) : SWF m ∧ m.abs = fun _ => none := by
  have hx := C26_index opts m hm hne
  rw [C26_new] at hm
  simp only at hm
  split at hm
  · simp at hm
  · simp only [Option.some.injEq] at hm
    subst hm
    have hz : (State.zero : State Bytes V).abs = fun _ => none := by funext k; simp [State.abs, State.ent, State.dget, State.zero]
    constructor
    · constructor
      · simp
      · exact hx
      · intro j s hj
        simp only [List.getElem?_replicate] at hj
        split at hj
        · simp only [Option.some.injEq] at hj; subst hj; exact wf_zero
        · simp at hj
      · intro j s k hj hk
        simp only [List.getElem?_replicate] at hj
        split at hj
        · simp only [Option.some.injEq] at hj; subst hj; rw [hz] at hk; exact absurd rfl hk
        · simp at hj
    · funext k
      simp only [SharedMap.abs, List.getElem?_replicate]
      split
      · simp [hz]
      · rfl

/-- The size chosen by the options: that of the last one, 32 if there is none. -/
def requested (opts : List Int) : Int := opts.getLast?.getD 32

theorem new_ok (opts : List Int) (h1 : 1 ≤ requested opts) (h2 : requested opts ≤ 2^31) : ∃ m : SharedMap V, newSharedMap opts = some m ∧ m.b ≠ [] ∧
    ∃ L, m.b.length = 2^L ∧ requested opts ≤ 2^L ∧ ∀ L' : Nat, requested opts ≤ 2^L' → m.b.length ≤ 2^L' := by
  obtain ⟨x, hx, he⟩ : ∃ x : UInt32, x = (opts.getLast?.map withShardBlockSize).getD 32 ∧ (x.toNat : Int) = requested opts := by
    refine ⟨_, rfl, ?_⟩
    simp only [requested] at *
    cases hl : opts.getLast? with
    | none => rfl
    | some n => rw [hl] at h1 h2; exact C26_option n h1 h2
  obtain ⟨L, l1, l2, l3, l4⟩ := C26_count x (by omega) (by omega)
  have hne : x ≠ 0 := by rintro rfl; simp at he; omega
  refine ⟨⟨List.replicate (getShardBlockSize x).toNat State.zero, getShardBlockSize x, getShardBlockSize x - 1⟩, ?_, ?_, L, ?_, ?_, ?_⟩
  · rw [C26_new]
    simp only [← hx, if_neg hne]
  · simp [l2]
  · simp [l2]
  · rw [← he]; exact_mod_cast l3
  · intro L' hL'
    simp only [List.length_replicate, l2]
    exact l4 L' (by rw [← he] at hL'; exact_mod_cast hL')

/-- C26: a requested count between 1 and 2^31 is rounded up to the least power of two; every key then has a shard; a count of 0
panics. -/
theorem C26_shards (opts : List Int) : (requested opts = 0 → newSharedMap (V := V) opts = none) ∧
    (1 ≤ requested opts → requested opts ≤ 2^31 → ∃ m : SharedMap V, newSharedMap opts = some m ∧
      (∃ L, m.b.length = 2^L ∧ requested opts ≤ 2^L ∧ ∀ L' : Nat, requested opts ≤ 2^L' → m.b.length ≤ 2^L') ∧
      ∀ key, (m.getShard key).isSome = true) := by
  constructor
  · intro h
    rw [C26_new]
    simp only [requested] at h
    cases hl : opts.getLast? with
    | none => rw [hl] at h; simp at h
    | some n => rw [hl] at h; simp only [Option.getD_some] at h; subst h; rfl
  · intro h1 h2
    obtain ⟨m, e1, e2, e3⟩ := new_ok (V := V) opts h1 h2
    refine ⟨m, e1, e3, fun key => ?_⟩
    have := C26_index opts m e1 e2 key
    simp [SharedMap.getShard, List.getElem?_eq_getElem this]

example : requested [] = 32 ∧ requested [3, 5] = 5 ∧ (newSharedMap (V := Unit) [3, 5]).map (·.b.length) = some 8 := ⟨rfl, rfl, rfl⟩

/-- C25: for every shard count from 1 to 2^31 any sequence of operations on a new `SharedMap` runs without panic and returns, call by
call, what an ordinary map returns. -/
theorem C25_ordinary_map (opts : List Int) (h1 : 1 ≤ requested opts) (h2 : requested opts ≤ 2^31) (ops : List (SOp V)) (hv : ∀ op ∈ ops, op.Valid) :
    ∃ m, newSharedMap opts = some m ∧ ∃ m' rs, execAll m ops = some (m', rs) ∧ ∃ c, SDoesAll (fun _ => none) ops c rs := by
  obtain ⟨m, e1, e2, _⟩ := new_ok (V := V) opts h1 h2
  obtain ⟨h3, h4⟩ := new_swf e1 e2
  obtain ⟨m', rs, f1, _, f3⟩ := execAll_spec ops m h3 hv
  exact ⟨m, e1, m', rs, f1, m'.abs, by rw [← h4]; exact f3⟩

/-- Two keys in different shards of two, one range that is stopped after the first call. -/
example : ((newSharedMap (V := Nat) [2]).bind fun m => execAll m [.store [97] 1, .store [98] 2, .loadOrStore [97] 5, .has [98], .delete [97],
    .has [97], .range (fun _ _ => false) (fun _ l => l)]).map (·.2) =
    some [.unit, .unit, .bool false, .bool true, .unit, .bool false, .visited [([98], 2)]] := by
  rfl

theorem sdoesAll_append {s t : M Bytes V} {ops : List (SOp V)} {op : SOp V} {rs : List (SRes V)} {r : SRes V}
    (h : SDoesAll s (ops ++ [op]) t (rs ++ [r])) (hl : ops.length = rs.length) : ∃ c, SDoesAll s ops c rs ∧ SDoes c op t r := by
  induction ops generalizing s rs with
  | nil =>
    cases rs with
    | nil =>
      simp only [List.nil_append] at h
      cases h with
      | cons h t => cases t; exact ⟨s, .nil _, h⟩
    | cons _ _ => simp at hl
  | cons o ops ih =>
    cases rs with
    | nil => simp at hl
    | cons q rs =>
      simp only [List.cons_append] at h
      cases h with
      | cons h1 t =>
        obtain ⟨c, hc, hd⟩ := ih t (by simpa using hl)
        exact ⟨c, .cons h1 hc, hd⟩

/-- The contents after a sequence of operations, which do not depend on iteration orders. -/
def contents (s : M Bytes V) : List (SOp V) → M Bytes V
  | [] => s
  | op :: ops => contents (match op with
    | .store k v => s.set k v
    | .mstore data => fun k => (GMap.get data k).or (s k)
    | .loadOrStore k v => if (s k).isSome then s else s.set k v
    | .computeIfAbsent k f => if (s k).isSome then s else s.set k (f k)
    | .computeIfPresent k f => match s k with | some w => s.set k (f k w) | none => s
    | .delete k => s.del k
    | .clear => fun _ => none
    | .load _ | .has _ | .range _ _ => s) ops

theorem sdoesAll_contents {s t : M Bytes V} {ops : List (SOp V)} {rs : List (SRes V)} (h : SDoesAll s ops t rs) : t = contents s ops := by
  induction h with
  | nil s => rfl
  | cons h _ ih =>
    rw [ih]
    cases h <;> simp_all [contents]

/-- C27: after any history, `Range` calls its function once per present key of any shard with its current value, in some order, up
to and including the first call that returns false. -/
theorem C27_range (opts : List Int) (h1 : 1 ≤ requested opts) (h2 : requested opts ≤ 2^31) (ops : List (SOp V))
    (f : List (Bytes × V) → Bytes × V → Bool) (order : Nat → GMap Bytes Nat → List (Bytes × Nat)) (hv : ∀ op ∈ ops, op.Valid)
    (ho : ∀ i m, (order i m).Perm m) {m m' m'' : SharedMap V} (hm : newSharedMap opts = some m) {rs : List (SRes V)}
    (he : execAll m ops = some (m', rs)) {calls : List (Bytes × V)} (hr : m'.range f order = some (m'', calls)) :
    ∃ l : List (Bytes × V), (l.map (·.1)).Nodup ∧ (∀ k v, (k, v) ∈ l ↔ contents (fun _ => none) ops k = some v) ∧ calls = callsUntil f [] l := by
  obtain ⟨m0, e1, e2, _⟩ := new_ok (V := V) opts h1 h2
  rw [hm] at e1
  simp only [Option.some.injEq] at e1
  subst e1
  obtain ⟨h3, h4⟩ := new_swf hm e2
  obtain ⟨m1, rs1, f1, f2, f3⟩ := execAll_spec ops m h3 hv
  rw [he] at f1
  simp only [Option.some.injEq, Prod.mk.injEq] at f1
  obtain ⟨rfl, rfl⟩ := f1
  obtain ⟨m2, l, g1, _, _, g4, g5⟩ := range_spec f2 f order ho
  rw [hr] at g1
  simp only [Option.some.injEq, Prod.mk.injEq] at g1
  rw [h4] at f3
  rw [sdoesAll_contents f3] at g5
  exact ⟨l, g4, g5, g1.2⟩

/-- Three keys in the two shards; the function returns false at its second call. -/
example : ((newSharedMap (V := Nat) [2]).bind fun m => (execAll m [.store [97] 1, .store [98] 2, .store [99] 3]).bind fun x =>
    x.1.range (fun pre _ => pre.length = 0) (fun _ l => l)).map (·.2) = some [([99], 3), ([97], 1)] := rfl

/-- C82: every accepted count gives a usable map. Refuted: for a count between 2^31+1 and 2^32-1, and for the negative counts from
-2^31+1 to -1, construction succeeds and the map has no shard at all: every operation on a key panics. -/
theorem C82_accepted_refuted (n : Int) (hn : (2^31 < n ∧ n < 2^32) ∨ (-2^31 < n ∧ n < 0)) (k : Bytes) (v : V) :
    ∃ m : SharedMap V, newSharedMap [n] = some m ∧ m.load k = none ∧ m.store k v = none ∧ m.getShard k = none := by
  have hx : 2^31 < (withShardBlockSize n).toNat := by
    simp only [withShardBlockSize]
    have h3 : n % 2^32 = n ∨ n % 2^32 = n + 2^32 := by omega
    have h4 : (n % 2^32).toNat < 2^32 := by omega
    rw [UInt32.toNat_ofNat', Nat.mod_eq_of_lt h4]
    omega
  have h0 := count_overflow _ hx
  have hne : withShardBlockSize n ≠ 0 := by intro e; rw [e] at hx; simp at hx
  refine ⟨⟨List.replicate (getShardBlockSize (withShardBlockSize n)).toNat State.zero, getShardBlockSize (withShardBlockSize n), getShardBlockSize (withShardBlockSize n) - 1⟩, ?_, ?_, ?_, ?_⟩
  · rw [C26_new]
    simp [hne]
  all_goals simp [h0, SharedMap.load, SharedMap.store, SharedMap.onShard, SharedMap.getShard]

/-- C82 as far as it holds: with a count from 1 to 2^31 no operation panics, after any history. -/
theorem C82_accepted_partial (opts : List Int) (h1 : 1 ≤ requested opts) (h2 : requested opts ≤ 2^31) (ops : List (SOp V)) (hv : ∀ op ∈ ops, op.Valid) :
    ((newSharedMap opts).bind fun m => execAll m ops).isSome = true := by
  obtain ⟨m, e1, m', rs, e2, _⟩ := C25_ordinary_map opts h1 h2 ops hv
  simp [e1, e2]

/-- The call works on a key. -/
def SOp.Keyed : SOp V → Prop
  | .clear | .range _ _ | .mstore [] => False
  | _ => True

/-- C82, exactly: only the requested count modulo 2^32 matters. For 0 construction panics; for 1 to 2^31 the map behaves as an ordinary map,
with the least power of two of shards; for more construction succeeds and every operation on a key panics. -/
theorem C82_exact (opts : List Int) :
    (requested opts % 2^32 = 0 → newSharedMap (V := V) opts = none) ∧
    (1 ≤ requested opts % 2^32 → requested opts % 2^32 ≤ 2^31 → ∀ ops : List (SOp V), (∀ op ∈ ops, op.Valid) →
      ∃ m, newSharedMap opts = some m ∧ ∃ m' rs, execAll m ops = some (m', rs) ∧ ∃ c, SDoesAll (fun _ => none) ops c rs) ∧
    (2^31 < requested opts % 2^32 → ∃ m : SharedMap V, newSharedMap opts = some m ∧ ∀ op : SOp V, op.Keyed → exec m op = none) := by
  have hw : ∀ n : Int, withShardBlockSize n = withShardBlockSize (n % 2^32) := by
    intro n; simp only [withShardBlockSize, Int.emod_emod_of_dvd n (Int.dvd_refl _)]
  have hx : (opts.getLast?.map withShardBlockSize).getD 32 = withShardBlockSize (requested opts) := by
    simp only [requested]
    cases opts.getLast? with
    | none => rfl
    | some n => rfl
  have hnew : newSharedMap (V := V) opts = newSharedMap [requested opts % 2^32] := by
    have h2 : (([requested opts % 2^32] : List Int).getLast?.map withShardBlockSize).getD 32 = withShardBlockSize (requested opts) := (hw _).symm
    rw [C26_new, C26_new, hx, h2]
  refine ⟨fun h0 => ?_, fun h1 h2 ops hv => ?_, fun h2 => ?_⟩
  · rw [hnew, h0, C26_new]; rfl
  · obtain ⟨m, e1, e2⟩ := C25_ordinary_map [requested opts % 2^32] h1 h2 ops hv
    exact ⟨m, hnew.trans e1, e2⟩
  · have hlt : requested opts % 2^32 < 2^32 := Int.emod_lt_of_pos _ (by decide)
    rw [hnew]
    generalize requested opts % 2^32 = n at h2 hlt
    have hx : 2^31 < (withShardBlockSize n).toNat := by
      simp only [withShardBlockSize]
      have h3 : n % 2^32 = n := by omega
      have h4 : (n % 2^32).toNat < 2^32 := by omega
      rw [UInt32.toNat_ofNat', Nat.mod_eq_of_lt h4]
      omega
    have h0 := count_overflow _ hx
    have hne : withShardBlockSize n ≠ 0 := by intro e; rw [e] at hx; simp at hx
    refine ⟨⟨List.replicate (getShardBlockSize (withShardBlockSize n)).toNat State.zero, getShardBlockSize (withShardBlockSize n), getShardBlockSize (withShardBlockSize n) - 1⟩, ?_, ?_⟩
    · rw [C26_new]
      simp [hne]
    · intro op hk
      cases op with
      | clear => exact absurd hk id
      | range f o => exact absurd hk id
      | mstore data =>
        cases data with
        | nil => exact absurd hk id
        | cons p data => simp [exec, SharedMap.mstore, h0, SharedMap.store, SharedMap.onShard, SharedMap.getShard]
      | _ => simp [exec, h0, SharedMap.load, SharedMap.has, SharedMap.store, SharedMap.loadOrStore, SharedMap.computeIfAbsent, SharedMap.computeIfPresent,
          SharedMap.delete, SharedMap.onShard, SharedMap.getShard]

example : newSharedMap (V := Nat) [2^32] = none ∧ ∃ m : SharedMap Nat, newSharedMap [-5] = some m ∧ exec m (.load [97]) = none :=
  ⟨(C82_exact [2^32]).1 (by decide), (by
    obtain ⟨m, h1, h2⟩ := (C82_exact (V := Nat) [-5]).2.2 (by decide)
    exact ⟨m, h1, h2 _ trivial⟩)⟩

end Verif.XSync.Shared

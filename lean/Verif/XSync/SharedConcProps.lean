import Verif.XSync.SharedConcLemmas
/-! # Property theorems for concurrent use of `xsync.SharedMap` (C87, C88) -/
namespace Verif.XSync.SharedConc
open Verif.Conc Verif.Go
open Verif.XSync.MapConc (M G Pt)
open Verif.XSync.Shared (requested)

variable {V : Type} [DecidableEq V]
set_option linter.unusedSectionVars false
variable {opts : List Int} {m : Shape} {mm : Cf V} {H : List (Ev (SOp V) (SRes V))}

theorem shape_good (h1 : 1 ≤ requested opts) (h2 : requested opts ≤ 2^31) (hm : newShape opts = some m) : m.Good := by
  refine newShape_good hm ?_
  obtain ⟨m0, e1, ⟨L, e2, -⟩, -⟩ := (Shared.C26_shards (V := Unit) opts).2 h1 h2
  simp only [newShape, e1, Option.map_some, Option.some.injEq] at hm
  rw [← hm]
  simp only [e2]
  exact Nat.two_pow_pos L

theorem explained_calm {g₀ : Nat → G Bytes V} (h0 : ∀ x, MapConc.Blank (g₀ x)) (hg : m.Good) (h : ((prog m).from g₀).mach.Exec mm H) :
    ∃ L st, Explains H L st ∧ RangeOk H L st ∧ PresentOk H L st ∧ ∀ i op tr o s, mm.pc i = .at op (.inner tr o s) → op.OneKey →
      (∀ (a : MapConc.A Bytes V) gh j, MapConc.FLoc a gh j o.2 s → gh.st j = .invoked o.2) → ∀ e ∈ L, e.1 ≠ i := by
  obtain ⟨E, LE, stE, B⟩ := behind h0 h
  have hist := ((prog m).from g₀).hist h
  have hop : ∀ i op, Ev.inv i op ∈ H → opOf mm i = op := by
    intro i op hi
    obtain ⟨x, hx⟩ := (hist.1 _ _).mp hi
    simp [opOf, hx]
  have hX : Explains H (LE.map (lift mm)) (fun n => glue m (stE n)) := by
    refine ⟨?_, ?_, ?_, ?_, ?_, ?_⟩
    · rw [B.lin.init]; rfl
    · intro n i op r hn
      simp only [List.getElem?_map, Option.map_eq_some_iff] at hn
      obtain ⟨e, he, hl⟩ := hn
      have := effect_legal (B.mem_part (List.mem_of_getElem? he)) (B.lin.legal n _ _ _ he)
      simp only [lift, Prod.mk.injEq] at hl
      rw [hl.2] at this
      exact this
    · rw [List.pairwise_map]
      refine List.Pairwise.imp_of_mem ?_ B.lin.order
      intro a b ha hb hn hB
      apply hn
      have := B.inside.before (Nat.unpair b.1).1 (Nat.unpair a.1).1 _ _ _ _ hB (B.inv hb) (B.inv ha)
      rwa [Nat.pair_unpair, Nat.pair_unpair] at this
    · intro x hx
      obtain ⟨e, he, rfl⟩ := List.mem_map.mp hx
      obtain ⟨op, z, h1, -⟩ := B.part _ _ _ (B.inv he)
      exact ⟨op, (hist.1 _ _).mpr ⟨z, h1⟩⟩
    · intro i op hi
      rw [filter_lift]
      exact B.started (hop i op hi)
    · intro i op r hi hr
      rw [filter_lift]
      exact B.effects hg (((prog m).from g₀).ret_view h hi hr)
  refine ⟨_, _, hX, ?_, ?_, ?_⟩
  rotate_left 2
  · rintro i op tr o s hp ho hcalm e he rfl
    obtain ⟨e', he', rfl⟩ := List.mem_map.mp he
    have zero : ∀ {t o'}, Part m op t o' → t = 0 := by
      intro t o' hP
      cases op <;> first | exact absurd ho id | (obtain ⟨_, _, _, _, h⟩ := hP; exact h)
    obtain ⟨op', z, h1, h2⟩ := B.part _ _ _ (B.inv he')
    have h3 := ((client m).decompose MapConc.prog h)
    obtain ⟨mE, E', hE, -, hc, hI⟩ := h3
    have hci := hc (lift mm e').1
    rw [hp] at hci
    have hn := zero (next_inl hci.2.1)
    simp only [lift] at hp
    simp only [Conf.view, hp, Proc.view, Option.some.injEq, Prod.mk.injEq] at h1
    rw [← h1.1] at h2
    refine B.calm _ _ _ _ _ hp hcalm e' he' ?_
    rw [hn, ← zero h2, Nat.pair_unpair]
  · intro i f r hi hr
    obtain ⟨tr, h1, h2, h3, h4⟩ := B.returned (((prog m).from g₀).ret_view h hi hr)
    -- the calls of the shards
    have hcall : ∀ t o r', tr[t]? = some (o, r') → o = (t, .range f) ∧ t < m.len ∧ ∃ l b, r' = .visited l b ∧ (l.map (·.1)).Nodup ∧
        (∀ x ∈ l, ∃ n, During E LE (Nat.pair i t) n ∧ stE n t x.1 = some x.2) ∧
        (b = true → ∀ k, k ∈ l.map (·.1) ∨ ∃ n, During E LE (Nat.pair i t) n ∧ stE n t k = none) := by
      intro t o r' ht
      have hp := next_inl (h2 t _ _ ht)
      have hlt := (List.getElem?_eq_some_iff.mp ht).1
      rw [List.length_take, Nat.min_eq_left (by omega)] at hp
      obtain ⟨rfl, hp⟩ := hp
      refine ⟨rfl, hp, ?_⟩
      have hmem := B.mem_of_tr h3 ht
      obtain ⟨n, hn⟩ := List.getElem?_of_mem hmem
      obtain ⟨hd, -⟩ := B.lin.legal n _ _ _ hn
      have hd : MapConc.Does (stE n t) (.range f) r' (stE (n + 1) t) := hd
      obtain ⟨l, b, rfl⟩ : ∃ l b, r' = .visited l b := by
        generalize stE (n + 1) t = z at hd
        cases hd
        exact ⟨_, _, rfl⟩
      exact ⟨l, b, rfl, B.saw _ _ _ (B.lin.invoked _ hmem) (h4 _ _ _ ht)⟩
    have hinv : ∀ t o r', tr[t]? = some (o, r') → Ev.inv (Nat.pair i t) o ∈ E := fun t o r' ht => B.lin.invoked _ (B.mem_of_tr h3 ht)
    exact range_seen hg h1 h2 (D := fun n => During H (LE.map (lift mm)) i n) (stE := stE) (fun t o r' ht => by
      obtain ⟨-, -, l, b, e, a1, a2, a3⟩ := hcall t o r' ht
      refine ⟨l, b, e, a1, fun x hx => ?_, fun hb k => (a3 hb k).imp id fun ⟨n, n1, n2⟩ => ⟨n, B.during (hinv _ _ _ ht) n1, n2⟩⟩
      obtain ⟨n, n1, n2⟩ := a2 x hx
      exact ⟨n, B.during (hinv _ _ _ ht) n1, n2⟩) (fun n hn => B.home n (by simpa using hn.1))
  · intro i k f w v hi hr
    obtain ⟨tr, h1, h2, h3, h4⟩ := B.returned (((prog m).from g₀).ret_view h hi hr)
    match tr, h1, h2, h3, h4 with
    | [], h1, _, _, _ => simp [Shape.next, keyed, Shape.on, hg.index] at h1
    | (o, r) :: tr, h1, h2, h3, h4 =>
      have hp := next_inl (h2 0 o r rfl)
      obtain ⟨k', b, hkb, rfl, -⟩ := hp
      simp only [keyed, Option.some.injEq, Prod.mk.injEq] at hkb
      obtain ⟨rfl, rfl⟩ := hkb
      simp only [Shape.next, Sum.inr.injEq] at h1
      obtain rfl : r = .present (some (w, v)) := by
        unfold result at h1
        split at h1 <;> simp_all
      have hmem := B.mem_of_tr h3 (t := 0) rfl
      obtain ⟨n, n', o', r', a1, a2, a3, a4⟩ := B.saw _ _ _ (B.lin.invoked _ hmem) (h4 0 _ _ rfl)
      have hsame := List.inj_on_of_nodup_map B.lin.once (List.mem_of_getElem? a4) hmem rfl
      refine ⟨n, n', ?_, B.during (t := 0) (B.lin.invoked _ hmem) a1, a3, a2⟩
      rw [List.getElem?_map, a4, hsame]
      simp [lift, hop i _ hi, effect, result]

theorem explained_from {g₀ : Nat → G Bytes V} (h0 : ∀ x, MapConc.Blank (g₀ x)) (hg : m.Good) (h : ((prog m).from g₀).mach.Exec mm H) : ∃ L st, Explains H L st ∧ RangeOk H L st ∧ PresentOk H L st := by
  obtain ⟨L, st, h1, h2, h3, _⟩ := explained_calm h0 hg h
  exact ⟨L, st, h1, h2, h3⟩

theorem explained (hg : m.Good) (h : (prog m).mach.Exec mm H) : ∃ L st, Explains H L st ∧ RangeOk H L st ∧ PresentOk H L st :=
  explained_from (g₀ := fun _ => MapConc.prog.init) (fun _ => MapConc.blank_zero) hg h

theorem Explains.linearizable {L : List (Nat × SOp V × SRes V)} {st : Nat → M Bytes V} (hX : Explains H L st)
    (hk : ∀ i op, Ev.inv i op ∈ H → op.OneKey ∧ ∀ k f, op ≠ .computeIfPresent k f) (hr : ∀ i r, Ev.ret i r ∈ H → ∃ op, Ev.inv i op ∈ H) :
    Linearization strictShared H L st := by
  have hone : ∀ {op : SOp V}, op.OneKey → ∀ l, Started op l → l <+: [op] := by
    intro op ho l hl
    cases op <;> first | exact hl | exact absurd ho id
  have hinv : ∀ x ∈ L, Ev.inv x.1 x.2.1 ∈ H := by
    intro x hx
    obtain ⟨op, ho⟩ := hX.invoked x hx
    have h1 := hone (hk _ _ ho).1 _ (hX.started _ _ ho)
    have h2 : x.2.1 ∈ [op] := h1.subset (List.mem_map.mpr ⟨x, List.mem_filter.mpr ⟨hx, by simp⟩, rfl⟩)
    rw [List.mem_singleton] at h2
    rw [h2]; exact ho
  refine ⟨?_, hinv, ?_, hX.init, ?_, hX.order⟩
  · rw [List.nodup_iff_count_le_one]
    intro i
    by_cases hm : i ∈ L.map (·.1)
    · obtain ⟨x, hx, rfl⟩ := List.mem_map.mp hm
      have ho := hinv x hx
      have h1 := (hone (hk _ _ ho).1 _ (hX.started _ _ ho)).length_le
      rw [List.length_map, List.length_singleton] at h1
      rw [List.count_eq_countP, List.countP_map, List.countP_eq_length_filter]
      refine Nat.le_trans (Nat.le_of_eq ?_) h1
      congr 1
    · rw [List.count_eq_zero_of_not_mem hm]; omega
  · intro i r hret
    obtain ⟨op, ho⟩ := hr i r hret
    have he := hX.returned i op r ho hret
    have h1 : (L.filter fun x => x.1 = i).map (fun x => x.2) = [(op, r)] := by
      have := (hk _ _ ho).1
      cases op <;> first | exact he | exact absurd this id
    have h2 : (op, r) ∈ (L.filter fun x => x.1 = i).map fun x => x.2 := by rw [h1]; simp
    obtain ⟨⟨j, y⟩, hy, rfl⟩ := List.mem_map.mp h2
    simp only [List.mem_filter, decide_eq_true_eq] at hy
    obtain ⟨hy, rfl⟩ := hy
    exact ⟨_, hy⟩
  · intro n i op r hn
    refine ⟨hX.legal n i op r hn, ?_⟩
    rintro k f w v rfl
    exact absurd rfl ((hk _ _ (hinv _ (List.mem_of_getElem? hn))).2 k f)

/-! ## Concrete executions -/

/-- `n` steps of the call `i`. -/
def runs (n i : Nat) : List (Act (SOp Nat)) := List.replicate n (.run i 0)

/-- Two shards; `"a"` and `"b"` are in different shards. -/
abbrev two : Shape := ⟨2, 2, 1⟩

example : newShape [2] = some two ∧ requested [2] = 2 ∧ two.index [97] = 0 ∧ two.index [98] = 1 := ⟨rfl, rfl, rfl, rfl⟩

/-- Concurrent operations on keys of both shards. -/
theorem demo : ∃ mm, (prog (V := Nat) two).mach.Exec mm
    [.inv 1 (.store [97] 5), .inv 2 (.loadOrStore [98] 7), .ret 2 (.bool true), .ret 1 .unit, .inv 3 (.has [97]), .ret 3 (.bool true),
     .inv 4 (.delete [97]), .inv 5 (.computeIfAbsent [97] fun _ _ => 9), .ret 5 (.loaded (some 9) false), .ret 4 .unit, .inv 6 (.load [97]),
     .ret 6 (.value (some 9))] :=
  Mach.exists_exec _ ([.inv 1 (.store [97] 5)] ++ runs 3 1 ++ [.inv 2 (.loadOrStore [98] 7)] ++ runs 11 2 ++ runs 8 1 ++ [.inv 3 (.has [97])] ++
    runs 10 3 ++ [.inv 4 (.delete [97]), .inv 5 (.computeIfAbsent [97] fun _ _ => 9)] ++ runs 4 4 ++ runs 7 5 ++ runs 2 4 ++ [.inv 6 (.load [97])] ++
    runs 5 6) _ rfl

/-- A `Range` that reports a pair that is replaced during the call and one that is stored during the call. -/
theorem demoRange : ∃ mm, (prog (V := Nat) two).mach.Exec mm
    [.inv 1 (.mstore [([97], 1), ([98], 2)]), .ret 1 .unit, .inv 2 (.range fun _ _ _ => true), .inv 3 (.store [97] 8), .ret 3 .unit,
     .inv 4 (.store [98] 9), .ret 4 .unit, .ret 2 (.visited [([97], 1), ([98], 9)] true)] :=
  Mach.exists_exec _ ([.inv 1 (.mstore [([97], 1), ([98], 2)])] ++ runs 20 1 ++ [.inv 2 (.range fun _ _ _ => true)] ++ runs 8 2 ++
    [.inv 3 (.store [97] 8)] ++ runs 6 3 ++ [.inv 4 (.store [98] 9)] ++ runs 8 4 ++ runs 12 2) _ rfl

/-- A history in which one pair of an `MStore` is seen before the other one is stored. -/
def halfStored : List (Ev (SOp Nat) (SRes Nat)) :=
  [.inv 1 (.mstore [([97], 1), ([98], 2)]), .inv 2 (.load [97]), .ret 2 (.value (some 1)), .inv 3 (.load [98]), .ret 3 (.value none), .ret 1 .unit]

theorem halfStored_exec : ∃ mm, (prog (V := Nat) two).mach.Exec mm halfStored :=
  Mach.exists_exec _ ([.inv 1 (.mstore [([97], 1), ([98], 2)])] ++ runs 9 1 ++ [.inv 2 (.load [97])] ++ runs 10 2 ++ [.inv 3 (.load [98])] ++ runs 4 3 ++
    runs 11 1) _ rfl

/-! ## C87 -/

/-- **C87.** Every concurrent history of `Load`, `Has`, `Store`, `LoadOrStore`, `ComputeIfAbsent` and `Delete` on a `SharedMap` is linearizable
with respect to an ordinary map, for every shard count from 1 to 2^31. -/
theorem C87_linearizable (h1 : 1 ≤ requested opts) (h2 : requested opts ≤ 2^31) (hm : newShape opts = some m) (h : (prog m).mach.Exec mm H)
    (hk : ∀ i op, Ev.inv i op ∈ H → op.OneKey ∧ ∀ k f, op ≠ .computeIfPresent k f) : Linearizable strictShared H := by
  obtain ⟨L, st, hX, -⟩ := explained (shape_good h1 h2 hm) h
  refine (hX.linearizable hk ?_).linearizable
  intro i r hr
  obtain ⟨op, ho⟩ := ((prog m).hist h).2 i r hr
  exact ⟨op, (((prog m).hist h).1 i op).mpr ⟨_, ho⟩⟩

example : Linearizable strictShared
    [.inv 1 (.store [97] 5), .inv 2 (.loadOrStore [98] 7), .ret 2 (.bool true), .ret 1 .unit, .inv 3 (.has [97]), .ret 3 (.bool true),
     .inv 4 (.delete [97]), .inv 5 (.computeIfAbsent [97] fun _ _ => 9), .ret 5 (.loaded (some 9) false), .ret 4 .unit, .inv 6 (.load [97]),
     .ret 6 (.value (some 9))] :=
  demo.elim fun _ h => C87_linearizable (opts := [2]) (by decide) (by decide) rfl h (by
    intro i op hi
    simp only [List.mem_cons, Ev.inv.injEq, reduceCtorEq, List.not_mem_nil, or_false, false_or] at hi
    rcases hi with ⟨_, rfl⟩ | ⟨_, rfl⟩ | ⟨_, rfl⟩ | ⟨_, rfl⟩ | ⟨_, rfl⟩ | ⟨_, rfl⟩ <;> exact ⟨trivial, by simp⟩)

/-- **C89.** No operation panics. -/
theorem C89_no_panic (h1 : 1 ≤ requested opts) (h2 : requested opts ≤ 2^31) (hm : newShape opts = some m) (h : (prog m).mach.Exec mm H) {i : Nat}
    {r : SRes V} (hr : Ev.ret i r ∈ H) : r ≠ .panic := by
  obtain ⟨L, st, hX, hR, -⟩ := explained (shape_good h1 h2 hm) h
  obtain ⟨op, ho⟩ := ((prog m).hist h).2 i r hr
  have hi := (((prog m).hist h).1 i op).mpr ⟨_, ho⟩
  have he := hX.returned i op r hi hr
  have key : (L.filter fun x => x.1 = i).map (fun x => x.2) = [(op, r)] → (∀ f, op ≠ .range f) → r ≠ .panic := by
    intro h1 hnr
    have h2 : (op, r) ∈ (L.filter fun x => x.1 = i).map fun x => x.2 := by rw [h1]; simp
    obtain ⟨⟨j, y⟩, hy, rfl⟩ := List.mem_map.mp h2
    obtain ⟨n, hn⟩ := List.getElem?_of_mem (List.mem_of_mem_filter hy)
    have hl := hX.legal n _ _ _ hn
    rintro rfl
    generalize st (n + 1) = s at hl
    cases hl
    exact hnr _ rfl
  cases op with
  | mstore data => rw [he.1]; simp
  | range f =>
    obtain ⟨l, all, rfl, -⟩ := hR i f r hi hr
    simp
  | _ => exact key he (by simp)

example : (SRes.visited [([97], 1), ([98], 9)] true : SRes Nat) ≠ .panic :=
  demoRange.elim fun _ h => C89_no_panic (opts := [2]) (by decide) (by decide) rfl h (i := 2) (by simp)

/-! ## C88 -/

/-- **C88.** Every concurrent history of a `SharedMap` has an explanation in which a returned `MStore` has stored each of its pairs exactly once by
an atomic `Store` during the call, every other call on one key has exactly one effect during the call, and `Range` and `ComputeIfPresent` saw what
`RangeOk` and `PresentOk` say. -/
theorem C88_effects (h1 : 1 ≤ requested opts) (h2 : requested opts ≤ 2^31) (hm : newShape opts = some m) (h : (prog m).mach.Exec mm H) :
    ∃ L st, Explains H L st ∧ RangeOk H L st ∧ PresentOk H L st :=
  explained (shape_good h1 h2 hm) h

example : ∃ H : List (Ev (SOp Nat) (SRes Nat)), H.length = 8 ∧ ∃ L st, Explains H L st ∧ RangeOk H L st ∧ PresentOk H L st :=
  demoRange.elim fun _ h => ⟨_, rfl, C88_effects (opts := [2]) (by decide) (by decide) rfl h⟩

theorem SDoes.unchanged {s s' : M Bytes V} {op : SOp V} {r : SRes V} {k : Bytes} (h : SDoes s op r s') (hk : ¬ op.Writes k) : s' k = s k := by
  cases h <;> first | rfl | (simp only [SOp.Writes] at hk; simp [MapConc.M.put, Ne.symm hk])

/-- **C88.** If the only call of a history that may change the value of `k` is an `MStore` with the pair `(k, v)`, every `Load` of `k` made after it
has returned returns `v`. -/
theorem C88_mstore_visible (h1 : 1 ≤ requested opts) (h2 : requested opts ≤ 2^31) (hm : newShape opts = some m) (h : (prog m).mach.Exec mm H)
    {i j : Nat} {data : List (Bytes × V)} {k : Bytes} {v : V} {r : SRes V} (hd : (data.map (·.1)).Nodup) (hkv : (k, v) ∈ data)
    (hi : Ev.inv i (.mstore data) ∈ H) (hj : Ev.inv j (.load k) ∈ H) (hr : Ev.ret j r ∈ H) (hb : Before H i j)
    (hw : ∀ i' op, Ev.inv i' op ∈ H → i' ≠ i → ¬ op.Writes k) : r = .value (some v) := by
  obtain ⟨L, st, hX, -⟩ := explained (shape_good h1 h2 hm) h
  obtain ⟨⟨r', hri⟩, -⟩ := before_mem hb
  obtain ⟨-, hmine⟩ := hX.returned i _ _ hi hri
  -- the store of the pair
  obtain ⟨p, hp⟩ : ∃ p, L[p]? = some (i, SOp.store k v, SRes.unit) := by
    have : ((SOp.store k v, SRes.unit) : SOp V × SRes V) ∈ (L.filter fun x => x.1 = i).map fun x => x.2 := by
      rw [hmine]; exact List.mem_map.mpr ⟨(k, v), hkv, rfl⟩
    obtain ⟨⟨i', y⟩, hy, rfl⟩ := List.mem_map.mp this
    simp only [List.mem_filter, decide_eq_true_eq] at hy
    obtain ⟨hy, rfl⟩ := hy
    exact List.getElem?_of_mem hy
  -- the load
  obtain ⟨q, hq⟩ : ∃ q, L[q]? = some (j, SOp.load k, r) := by
    have he := hX.returned j _ _ hj hr
    have : ((SOp.load k, r) : SOp V × SRes V) ∈ (L.filter fun x => x.1 = j).map fun x => x.2 := by
      rw [show (L.filter fun x => x.1 = j).map (fun x => x.2) = [(SOp.load k, r)] from he]; simp
    obtain ⟨⟨i', y⟩, hy, rfl⟩ := List.mem_map.mp this
    simp only [List.mem_filter, decide_eq_true_eq] at hy
    obtain ⟨hy, rfl⟩ := hy
    exact List.getElem?_of_mem hy
  have hpq : p < q := by
    rcases Nat.lt_trichotomy p q with h | h | h
    · exact h
    · subst h; rw [hp] at hq; simp at hq
    · exfalso
      have ho := List.pairwise_iff_getElem.mp hX.order
      obtain ⟨a1, a2⟩ := List.getElem?_eq_some_iff.mp hp
      obtain ⟨b1, b2⟩ := List.getElem?_eq_some_iff.mp hq
      have := ho q p b1 a1 h
      rw [a2, b2] at this
      exact this hb
  -- no other effect on the key
  have hother : ∀ (n i' : Nat) (op' : SOp V) (r' : SRes V), L[n]? = some (i', op', r') → op'.Writes k → op' = .store k v := by
    intro n i' op' r' hn hwr
    have hmem := List.mem_of_getElem? hn
    by_cases hii : i' = i
    · subst hii
      have : (op', r') ∈ (L.filter fun x => x.1 = i').map fun x => x.2 :=
        List.mem_map.mpr ⟨(i', op', r'), List.mem_filter.mpr ⟨hmem, by simp⟩, rfl⟩
      rw [hmine] at this
      obtain ⟨⟨k', v'⟩, hx, hy⟩ := List.mem_map.mp this
      simp only [Prod.mk.injEq] at hy
      obtain ⟨rfl, -⟩ := hy
      have hk' : k' = k := hwr
      have := List.inj_on_of_nodup_map hd hx hkv hk'
      simp only [Prod.mk.injEq] at this
      rw [this.1, this.2]
    · exfalso
      obtain ⟨op, ho⟩ := hX.invoked _ hmem
      have hs := hX.started _ _ ho
      have hno := hw _ _ ho hii
      have hin : op' ∈ (L.filter fun x => x.1 = i').map fun x => x.2.1 :=
        List.mem_map.mpr ⟨(i', op', r'), List.mem_filter.mpr ⟨hmem, by simp⟩, rfl⟩
      have same : op' = op → False := by rintro rfl; exact hno hwr
      cases op with
      | mstore data' =>
        have := hs.subset hin
        obtain ⟨⟨k', v'⟩, hx, rfl⟩ := List.mem_map.mp this
        have hk' : k' = k := hwr
        subst hk'
        exact hno (List.mem_map.mpr ⟨_, hx, rfl⟩)
      | range f => exact same (hs _ hin)
      | _ => exact same (List.mem_singleton.mp (hs.subset hin))
  have hval : ∀ d, p + 1 + d ≤ q → st (p + 1 + d) k = some v := by
    intro d
    induction d with
    | zero =>
      intro _
      have hl := hX.legal _ _ _ _ hp
      generalize st (p + 1) = s at hl
      cases hl
      simp [MapConc.M.put]
    | succ d ih =>
      intro hle
      have ih := ih (by omega)
      have hlt : p + 1 + d < L.length := by
        have := (List.getElem?_eq_some_iff.mp hq).1; omega
      obtain ⟨⟨i', op', r'⟩, hn⟩ : ∃ x, L[p + 1 + d]? = some x := ⟨_, List.getElem?_eq_getElem hlt⟩
      have hl := hX.legal _ _ _ _ hn
      have hw' := hother _ _ _ _ hn
      rw [show p + 1 + (d + 1) = p + 1 + d + 1 by omega]
      by_cases hwr : op'.Writes k
      · have := hw' hwr
        subst this
        generalize st (p + 1 + d + 1) = s at hl
        cases hl
        simp [MapConc.M.put]
      · rw [hl.unchanged hwr, ih]
  have hl := hX.legal _ _ _ _ hq
  have := hval (q - (p + 1)) (by omega)
  rw [show p + 1 + (q - (p + 1)) = q by omega] at this
  generalize st (q + 1) = s at hl
  cases hl
  rw [this]

/-- The history of `halfStored`, a `Store` of a third key, and a `Load` after the `MStore`. -/
example : (SRes.value (some 2) : SRes Nat) = .value (some 2) :=
  have demo : ∃ mm, (prog (V := Nat) two).mach.Exec mm (halfStored ++ [.inv 4 (.store [99] 7), .ret 4 .unit, .inv 5 (.load [98]), .ret 5 (.value (some 2))]) :=
    Mach.exists_exec _ ([.inv 1 (.mstore [([97], 1), ([98], 2)])] ++ runs 9 1 ++ [.inv 2 (.load [97])] ++ runs 10 2 ++ [.inv 3 (.load [98])] ++ runs 4 3 ++
      runs 11 1 ++ [.inv 4 (.store [99] 7)] ++ runs 13 4 ++ [.inv 5 (.load [98])] ++ runs 10 5) _ rfl
  demo.elim fun _ h => C88_mstore_visible (opts := [2]) (by decide) (by decide) rfl h (i := 1) (j := 5) (data := [([97], 1), ([98], 2)]) (k := [98]) (v := 2)
    (by decide) (by simp) (by simp [halfStored]) (by simp [halfStored]) (by simp [halfStored])
    ⟨halfStored, _, .unit, .load [98], rfl, by simp [halfStored], by simp⟩ (by
      intro i op hi hne
      simp [halfStored] at hi
      rcases hi with ⟨rfl, _⟩ | ⟨_, rfl⟩ | ⟨_, rfl⟩ | ⟨_, rfl⟩ | ⟨_, rfl⟩ <;> simp_all [SOp.Writes])

/-- The call of a shard by a `Range` that was not stopped. -/
def Whole (f : Bytes → V → Nat → Bool) (e : (Nat × BOp V) × BRes V) : Prop :=
  ∃ l, e.2 = .visited l true ∧ ∀ k v, (k, v) ∈ l → ∃ c, f k v c = true

theorem visits_whole {f : Bytes → V → Nat → Bool} {tr : Tr V} (h : ∀ e ∈ tr, Whole f e) : ∀ k v, (k, v) ∈ visits tr → ∃ c, f k v c = true := by
  intro k v hk
  simp only [visits, List.mem_flatMap] at hk
  obtain ⟨e, he, hk⟩ := hk
  obtain ⟨l, h1, h2⟩ := h e he
  rw [h1] at hk
  exact h2 k v hk

/-- **C88.** `Range` stops exactly when the function returns false, whatever shard it is in: all calls but the last returned true, and the last
one returned what the flag says. -/
theorem C88_range_stops (h1 : 1 ≤ requested opts) (h2 : requested opts ≤ 2^31) (hm : newShape opts = some m) (h : (prog m).mach.Exec mm H)
    {i : Nat} {f : Bytes → V → Nat → Bool} {r : SRes V} (hi : Ev.inv i (.range f) ∈ H) (hr : Ev.ret i r ∈ H) :
    (∃ l, r = .visited l true ∧ ∀ k v, (k, v) ∈ l → ∃ c, f k v c = true) ∨
    ∃ l k v c, r = .visited (l ++ [(k, v)]) false ∧ f k v c = false ∧ ∀ k v, (k, v) ∈ l → ∃ c, f k v c = true := by
  let Q : CPt (BOp V) (BRes V) (Pt Bytes V) ⊕ SRes V → Prop := fun x => match x with
    | .inl (.between tr) => (∀ e ∈ tr, Whole f e) ∨ ∃ tr' e, tr = tr' ++ [e] ∧ (∀ e ∈ tr', Whole f e) ∧ MapConc.Stopped f e.2
    | .inl (.inner tr o s) => (∀ e ∈ tr, Whole f e) ∧ o.2 = .range f ∧ MapConc.RangePt f (.inl s)
    | .inr r => r = .panic ∨ (∃ l, r = .visited l true ∧ ∀ k v, (k, v) ∈ l → ∃ c, f k v c = true) ∨
        ∃ l k v c, r = .visited (l ++ [(k, v)]) false ∧ f k v c = false ∧ ∀ k v, (k, v) ∈ l → ∃ c, f k v c = true
  have key := (prog m).induct (fun _ v _ => ∀ i x, v i = some (.range f, x) → Q x) (by simp) ?_ ?_ ?_ h
  · rcases key i _ ((prog m).ret_view h hi hr) with hp | hp
    · exact absurd hp (C89_no_panic h1 h2 hm h hr)
    · exact hp
  · intro g v H j op ih hv i' x hx
    by_cases hij : i' = j
    · subst hij
      simp only [upd_same, Option.some.injEq, Prod.mk.injEq] at hx
      rw [← hx.2]
      exact Or.inl (by simp)
    · rw [upd_ne _ _ hij] at hx; exact ih i' x hx
  · intro g v H j op s c g' x ih hv hst i' x' hx
    by_cases hij : i' = j
    · subst hij
      simp only [upd_same, Option.some.injEq, Prod.mk.injEq] at hx
      obtain ⟨rfl, rfl⟩ := hx
      have hq := ih i' _ hv
      cases s with
      | between tr =>
        simp only [Q] at hq
        have hlast : tr.getLast? = none ∨ (∃ x l, tr.getLast? = some (x, .visited l true)) → ∀ e ∈ tr, Whole f e := by
          intro hl
          rcases hq with hq | ⟨tr', e, rfl, hq, hs⟩
          · exact hq
          · rw [List.getLast?_append] at hl
            simp only [List.getLast?_singleton, Option.some_or, Option.some.injEq, reduceCtorEq, false_or] at hl
            obtain ⟨y, l, rfl⟩ := hl
            intro e' he
            simp only [List.mem_append, List.mem_singleton] at he
            rcases he with he | rfl
            · exact hq e' he
            · rcases hs with ⟨l', hs, hs'⟩ | ⟨l', k, w, c', hs, -⟩
              · exact ⟨l', hs, hs'⟩
              · simp at hs
        have hnext : (∃ o, m.next (.range f) tr = .inl o ∧ x = .inl (.inner tr o (MapConc.prog.begin o.2))) ∨
            ∃ r, m.next (.range f) tr = .inr r ∧ x = .inr r := by
          simp only [prog, Client.prog, client] at hst
          split at hst <;> rename_i y hy <;> simp only [Option.some.injEq, Prod.mk.injEq] at hst
          · exact Or.inl ⟨y, hy, hst.2.symm⟩
          · exact Or.inr ⟨y, hy, hst.2.symm⟩
        have hgo : (∀ e ∈ tr, Whole f e) → m.next (.range f) tr =
            (if tr.length < m.shardBlockSize.toNat then if tr.length < m.len then .inl (tr.length, .range f) else .inr .panic
              else .inr (.visited (visits tr) true)) → Q x := by
          intro hall hy
          rcases hnext with ⟨o, ho, rfl⟩ | ⟨r, ho, rfl⟩ <;> rw [hy] at ho <;> split at ho
          · split at ho
            · simp only [Sum.inl.injEq] at ho
              subst ho
              exact ⟨hall, rfl, trivial⟩
            · simp at ho
          · simp at ho
          · split at ho
            · simp at ho
            · simp only [Sum.inr.injEq] at ho
              exact Or.inl ho.symm
          · simp only [Sum.inr.injEq] at ho
            exact Or.inr (Or.inl ⟨_, ho.symm, visits_whole hall⟩)
        cases hl : tr.getLast? with
        | none => exact hgo (hlast (Or.inl hl)) (by simp only [Shape.next, hl])
        | some e =>
          obtain ⟨y, q⟩ := e
          have hp : m.next (.range f) tr = .inr .panic → Q x := by
            intro hy
            rcases hnext with ⟨o, ho, rfl⟩ | ⟨r, ho, rfl⟩ <;> rw [hy] at ho
            · simp at ho
            · simp only [Sum.inr.injEq] at ho
              exact Or.inl ho.symm
          cases q with
          | visited l b =>
            cases b with
            | true => exact hgo (hlast (Or.inr ⟨y, l, hl⟩)) (by simp only [Shape.next, hl])
            | false =>
              have hy : m.next (.range f) tr = .inr (.visited (visits tr) false) := by simp only [Shape.next, hl]
              rcases hnext with ⟨o, ho, rfl⟩ | ⟨r, ho, rfl⟩ <;> rw [hy] at ho
              · simp at ho
              simp only [Sum.inr.injEq] at ho
              subst ho
              rcases hq with hq | ⟨tr', e, rfl, hq, hs⟩
              · obtain ⟨l', h3, -⟩ := hq _ (List.mem_of_getLast? hl)
                simp at h3
              · rw [List.getLast?_append] at hl
                simp only [List.getLast?_singleton, Option.some_or, Option.some.injEq] at hl
                subst hl
                rcases hs with ⟨l', hs, hs'⟩ | ⟨l', k, w, c', hs, hs1, hs2⟩
                · simp at hs
                · simp only [MapConc.Res.visited.injEq, and_true] at hs
                  subst hs
                  refine Or.inr (Or.inr ⟨visits tr' ++ l', k, w, c', ?_, hs1, ?_⟩)
                  · simp [visits]
                  · intro k' v' hm'
                    simp only [List.mem_append] at hm'
                    rcases hm' with hm' | hm'
                    · exact visits_whole hq k' v' hm'
                    · exact hs2 k' v' hm'
          | _ => exact hp (by simp only [Shape.next, hl])
      | inner tr o s =>
        obtain ⟨q1, q2, q3⟩ := hq
        simp only [prog, Client.prog] at hst
        split at hst
        · simp at hst
        · rename_i g2 s' hs
          simp only [Option.some.injEq, Prod.mk.injEq] at hst
          rw [← hst.2]
          rw [q2] at hs
          exact ⟨q1, q2, MapConc.rangePt_step q3 hs⟩
        · rename_i g2 r hs
          simp only [Option.some.injEq, Prod.mk.injEq] at hst
          rw [← hst.2]
          rw [q2] at hs
          exact Or.inr ⟨tr, (o, r), rfl, q1, MapConc.rangePt_step q3 hs⟩
    · rw [upd_ne _ _ hij] at hx; exact ih i' x' hx
  · intro g v H j op r ih _ i' x hx
    exact ih i' x hx

/-- A `Range` stopped by its function in the second shard. -/
theorem demoStopped : ∃ mm, (prog (V := Nat) two).mach.Exec mm
    [.inv 1 (.mstore [([97], 1), ([98], 2)]), .ret 1 .unit, .inv 2 (.range fun _ v _ => v == 1), .ret 2 (.visited [([97], 1), ([98], 2)] false)] :=
  Mach.exists_exec _ ([.inv 1 (.mstore [([97], 1), ([98], 2)])] ++ runs 20 1 ++ [.inv 2 (.range fun _ v _ => v == 1)] ++ runs 19 2) _ rfl

example := demoStopped.elim fun _ h => C88_range_stops (opts := [2]) (by decide) (by decide) rfl h (i := 2) (f := fun _ v _ => v == 1)
  (r := .visited [([97], 1), ([98], 2)] false) (by simp) (by simp)

/-- **`MStore` is not atomic.** There is an execution in which one pair of an `MStore` is seen by a `Load` and a later `Load` does not see the other
pair; its history is not linearizable with respect to an ordinary map with an atomic `MStore`. -/
theorem C88_mstore_atomic_refuted : ∃ mm, (prog (V := Nat) two).mach.Exec mm halfStored ∧ ¬ Linearizable atomicShared halfStored := by
  obtain ⟨mm, hm⟩ := halfStored_exec
  refine ⟨mm, hm, ?_⟩
  rintro ⟨L, h1, h2, h3, ⟨s, h4⟩, h5⟩
  obtain ⟨st, e1, -, e3⟩ := states_of_runs h4
  have hin : ∀ i op r, (i, op, r) ∈ L → (i = 1 ∧ op = .mstore [([97], 1), ([98], 2)]) ∨ (i = 2 ∧ op = .load [97]) ∨ (i = 3 ∧ op = .load [98]) := by
    intro i op r h
    have := h2 _ h
    simpa [halfStored] using this
  -- nothing or both pairs are stored
  have hstep : ∀ n, n < L.length → (st (n + 1) [97] = st n [97] ∧ st (n + 1) [98] = st n [98]) ∨ (st (n + 1) [97] = some 1 ∧ st (n + 1) [98] = some 2) := by
    intro n hn
    obtain ⟨⟨i, op, r⟩, hx⟩ : ∃ x, L[n]? = some x := ⟨_, List.getElem?_eq_getElem hn⟩
    have hl := e3 _ _ _ _ hx
    have hop := hin _ _ _ (List.mem_of_getElem? hx)
    rcases hl with hl | ⟨data, rfl, -, hs⟩
    · rcases hop with ⟨-, rfl⟩ | ⟨-, rfl⟩ | ⟨-, rfl⟩
      · cases hl
      · left; generalize st (n + 1) = s at hl; cases hl; exact ⟨rfl, rfl⟩
      · left; generalize st (n + 1) = s at hl; cases hl; exact ⟨rfl, rfl⟩
    · right
      simp only [SOp.mstore.injEq, reduceCtorEq, and_false, or_false] at hop
      rw [hs, hop.2]
      simp [MapConc.M.put]
  have hboth : ∀ n, n ≤ L.length → st n [97] = some 1 → st n [98] = some 2 := by
    intro n
    induction n with
    | zero => intro _; rw [e1]; simp [atomicShared]
    | succ n ih =>
      intro hn
      rcases hstep n hn with ⟨a, b⟩ | ⟨a, b⟩
      · rw [a, b]; exact ih (by omega)
      · intro _; exact b
  have hstay : ∀ n d, n + d ≤ L.length → st n [98] = some 2 → st (n + d) [98] = some 2 := by
    intro n d
    induction d with
    | zero => intro _ h; exact h
    | succ d ih =>
      intro hn h
      rcases hstep (n + d) (by omega) with ⟨a, b⟩ | ⟨a, b⟩
      · rw [show n + (d + 1) = n + d + 1 by omega, b]; exact ih (by omega) h
      · exact b
  obtain ⟨o2, m2⟩ := h3 2 (.value (some 1)) (by simp [halfStored])
  obtain ⟨o3, m3⟩ := h3 3 (.value none) (by simp [halfStored])
  obtain rfl : o2 = .load [97] := by simpa using hin _ _ _ m2
  obtain rfl : o3 = .load [98] := by simpa using hin _ _ _ m3
  obtain ⟨p, hp⟩ := List.getElem?_of_mem m2
  obtain ⟨q, hq⟩ := List.getElem?_of_mem m3
  have hbef : Before halfStored 2 3 := ⟨halfStored.take 3, halfStored.drop 3, .value (some 1), .load [98], rfl, by simp [halfStored], by simp [halfStored]⟩
  obtain ⟨a1, a2⟩ := List.getElem?_eq_some_iff.mp hp
  obtain ⟨b1, b2⟩ := List.getElem?_eq_some_iff.mp hq
  have hpq : p < q := by
    rcases Nat.lt_trichotomy p q with h | h | h
    · exact h
    · subst h; rw [hp] at hq; simp at hq
    · exfalso
      have := List.pairwise_iff_getElem.mp h5 q p b1 a1 h
      rw [a2, b2] at this
      exact this hbef
  have v2 : st p [97] = some 1 := by
    rcases e3 _ _ _ _ hp with hl | ⟨data, hd, -⟩
    · generalize hs : st (p + 1) = s at hl
      generalize hr : SRes.value (some 1) = r at hl
      cases hl
      simpa using hr.symm
    · simp at hd
  have v3 : st q [98] = none := by
    rcases e3 _ _ _ _ hq with hl | ⟨data, hd, -⟩
    · generalize hs : st (q + 1) = s at hl
      generalize hr : SRes.value none = r at hl
      cases hl
      simpa using hr.symm
    · simp at hd
  have := hstay p (q - p) (by omega) (hboth p (by omega) v2)
  rw [show p + (q - p) = q by omega, v3] at this
  simp at this

end Verif.XSync.SharedConc

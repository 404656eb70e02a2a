import Verif.XSync.SharedWordsLemmas
/-!
# Properties of `SharedMap.Clear` concurrent with other operations

C119. `Clear` clears one shard after the other, so it is not atomic for keys of different shards. For every single key it is.
-/
namespace Verif.XSync.SharedConc
open Verif.Conc Verif.Go
open Verif.XSync.MapConc (M ClearOp)
open Verif.XSync.MapWords (GW PtW progW)
open Verif.XSync.Shared (requested)

variable {V : Type} [DecidableEq V]
set_option linter.unusedSectionVars false
variable {opts : List Int} {m : Shape} {mm : CfW V} {H : List (Ev (SO V) (SRes V))} {E : List (Ev (Nat × BO V) (BRes V))}
  {LE : List (Nat × (Nat × BO V) × BRes V)} {stE : Nat → Nat → M Bytes V}

/-! ## The explanation -/

theorem plain_inl {m : Shape} {op : SOp V} {t : Nat} {so : Nat × BO V} (h : PartW m (.inl op) t so) : ∃ b, so = (so.1, .inl b) ∧ Part m op t (so.1, b) ∧ plain so = (so.1, b) := by
  obtain ⟨b, h1, h2⟩ := h
  obtain ⟨x, y⟩ := so
  simp only at h1
  subst h1
  exact ⟨b, rfl, h2, rfl⟩

/-- What a `Range` none of whose calls of shards panicked saw. -/
theorem BehindW.range (B : BehindW m mm H E LE stE) (hg : m.Good) {i : Nat} {f : Bytes → V → Nat → Bool} {r : SRes V} {tr : TrW V}
    (h1 : m.nextW (.inl (.range f)) tr = .inr r) (h2 : ∀ t o r', tr[t]? = some (o, r') → m.nextW (.inl (.range f)) (tr.take t) = .inl o)
    (h3 : mineW LE i = tr.mapIdx fun t x => (Nat.pair i t, x.1, x.2)) (h4 : ∀ t o r', tr[t]? = some (o, r') → Ev.ret (Nat.pair i t) r' ∈ E ∧ r' ≠ .panic) :
    ∃ l all, r = .visited l all ∧ (l.map (·.1)).Nodup ∧
      (∀ k v, (k, v) ∈ l → ∃ n, During H (LE.map (liftW mm)) i n ∧ glue m (stE n) k = some v) ∧
      (all = true → ∀ k, (∀ n, During H (LE.map (liftW mm)) i n → glue m (stE n) k ≠ none) → ∃ v, (k, v) ∈ l) := by
  refine range_seen hg (tr := tr.map fun x => (plain x.1, x.2)) (f := f) ?_ (script_plain h2) (D := fun n => During H (LE.map (liftW mm)) i n) (stE := stE) ?_
    (fun n hn => B.home n (by simpa using hn.1))
  · rw [nextW_plain]; exact nextW_inr.1 h1
  · intro t o r' ht
    rw [List.getElem?_map, Option.map_eq_some_iff] at ht
    obtain ⟨⟨so, r''⟩, ht, e⟩ := ht
    simp only [Prod.mk.injEq] at e
    obtain ⟨-, rfl⟩ := e
    have hp := nextW_inl (h2 t _ _ ht)
    have hlt := (List.getElem?_eq_some_iff.mp ht).1
    rw [List.length_take, Nat.min_eq_left (by omega)] at hp
    obtain ⟨b, e1, ⟨e2, hp⟩, -⟩ := plain_inl hp
    simp only [Prod.mk.injEq] at e2
    have hmem := B.mem_of_tr h3 ht
    rw [e1, e2.1, e2.2] at hmem
    obtain ⟨n, hn⟩ := List.getElem?_of_mem hmem
    obtain ⟨hd, -⟩ := B.lin.legal n _ _ _ hn
    have hd : MapConc.Does (stE n t) (.range f) r'' (stE (n + 1) t) := hd
    obtain ⟨l, b, rfl⟩ : ∃ l b, r'' = .visited l b := by
      generalize stE (n + 1) t = z at hd
      cases hd
      exact ⟨_, _, rfl⟩
    have hinv := B.lin.invoked _ hmem
    obtain ⟨a1, a2, a3⟩ := B.saw _ _ _ _ hinv (h4 t _ _ ht).1 (by simp)
    refine ⟨l, b, rfl, a1, fun x hx => ?_, fun hb k => (a3 hb k).imp id fun ⟨n, n1, n2⟩ => ⟨n, B.during hinv n1, n2⟩⟩
    obtain ⟨n, n1, n2⟩ := a2 x hx
    exact ⟨n, B.during hinv n1, n2⟩

theorem BehindW.mem_effect (B : BehindW m mm H E LE stE) {i : Nat} {op : SOp V} (ho : opOfW mm i = .inl op) {tr : TrW V}
    (h3 : mineW LE i = tr.mapIdx fun t x => (Nat.pair i t, x.1, x.2)) :
    (((mineW LE i).map (liftW mm)).map fun x => x.2) =
      ((tr.map fun x => (plain x.1, x.2)).map fun x => effect op x.1.2 x.2).map fun x => ((.inl x.1, x.2) : Change V × SRes V) := by
  apply List.ext_getElem?
  intro t
  simp only [List.getElem?_map]
  cases ht : tr[t]? with
  | none => rw [h3, List.getElem?_mapIdx, ht]; rfl
  | some x =>
    have hm : (mineW LE i)[t]? = some (Nat.pair i t, x.1, x.2) := by rw [h3, List.getElem?_mapIdx, ht]; rfl
    have hp := B.nth_part hm
    rw [ho] at hp
    obtain ⟨b, e1, -, e2⟩ := plain_inl hp
    simp only at e1 e2
    simp only [hm, Option.map_some, liftW, Nat.unpair_pair, ho]
    rw [e1] at e2 ⊢
    simp only [effectW, e2]

/-- A call none of whose calls of shards panicked does not panic. -/
theorem BehindW.no_panic (B : BehindW m mm H E LE stE) (hg : m.Good) {i : Nat} {op : SOp V} {r : SRes V} {tr : TrW V} (ho : opOfW mm i = .inl op)
    (h1 : m.nextW (.inl op) tr = .inr r) (h2 : ∀ t o r', tr[t]? = some (o, r') → m.nextW (.inl op) (tr.take t) = .inl o)
    (h3 : mineW LE i = tr.mapIdx fun t x => (Nat.pair i t, x.1, x.2)) (h4 : ∀ t o r', tr[t]? = some (o, r') → Ev.ret (Nat.pair i t) r' ∈ E ∧ r' ≠ .panic) :
    Effects op r ((tr.map fun x => (plain x.1, x.2)).map fun x => effect op x.1.2 x.2) ∧ r ≠ .panic := by
  have he : Effects op r ((tr.map fun x => (plain x.1, x.2)).map fun x => effect op x.1.2 x.2) := by
    refine effects_of hg ?_ (script_plain h2) ?_
    · rw [nextW_plain]; exact nextW_inr.1 h1
    · intro x hx
      obtain ⟨y, hy, rfl⟩ := List.mem_map.1 hx
      obtain ⟨t, ht⟩ := List.getElem?_of_mem hy
      exact (h4 t _ _ ht).2
  refine ⟨he, ?_⟩
  have key : ((tr.map fun x => (plain x.1, x.2)).map fun x => effect op x.1.2 x.2) = [(op, r)] → (∀ f, op ≠ .range f) → r ≠ .panic := by
    intro e hnr
    have hm := B.mem_effect ho h3
    rw [e] at hm
    have hin : ((.inl op, r) : Change V × SRes V) ∈ ((mineW LE i).map (liftW mm)).map fun x => x.2 := by rw [hm]; simp
    obtain ⟨y, hy, hyr⟩ := List.mem_map.1 hin
    obtain ⟨x, hx, rfl⟩ := List.mem_map.1 hy
    obtain ⟨n, hn⟩ := List.getElem?_of_mem (List.mem_of_mem_filter hx)
    have hl := effectW_legal (B.mem_part (List.mem_of_mem_filter hx)) (B.lin.legal n _ _ _ hn)
    have e2 : (effectW (opOfW mm (Nat.unpair x.1).1) x.2.1 x.2.2) = (.inl op, r) := hyr
    rw [e2] at hl
    have hl : SDoes (glue m (stE n)) op r (glue m (stE (n + 1))) := hl
    rintro rfl
    generalize glue m (stE (n + 1)) = s at hl
    cases hl
    exact hnr _ rfl
  cases op with
  | mstore data => rw [he.1]; simp
  | range f =>
    obtain ⟨l, all, rfl, -⟩ := B.range hg h1 h2 h3 h4
    simp
  | _ => exact key he (by simp)

/-- After a panic of a shard the call panics. -/
theorem panicked {op : SOp V} {r : SRes V} {tr : TrW V} {so : Nat × BO V} (h1 : m.nextW (.inl op) (tr ++ [(so, .panic)]) = .inr r)
    (h2 : ∀ t o r', (tr ++ [(so, MapConc.Res.panic)])[t]? = some (o, r') → m.nextW (.inl op) ((tr ++ [(so, MapConc.Res.panic)]).take t) = .inl o) : r = .panic := by
  have hp := nextW_inl (h2 tr.length so .panic (by simp))
  rw [List.take_left'] at hp
  · obtain ⟨b, -, hp, -⟩ := plain_inl hp
    have := next_panic (m := m) (op := op) (tr := tr ++ [(so, .panic)]) (x := so) (by simp) (by
      by_cases ho : op.OneKey
      · left
        have : tr.length = 0 := by cases op <;> first | exact absurd ho id | (obtain ⟨_, _, _, _, h⟩ := hp; exact h)
        simp [this]
      · exact .inr ho)
    rw [nextW_inr.1 h1] at this
    simpa using this
  · rfl

theorem BehindW.effects (B : BehindW m mm H E LE stE) (hg : m.Good) {i : Nat} {o : SO V} {r : SRes V} (hv : mm.view i = some (o, .inr r)) :
    EffectsW m o r (((mineW LE i).map (liftW mm)).map fun x => x.2) := by
  obtain ⟨tr, tr₀, h1, h2, hc, h3, h4⟩ := B.returned hv
  have ho : opOfW mm i = o := by simp [opOfW, hv]
  cases o with
  | inl op =>
    refine ⟨_, B.mem_effect ho h3, ?_⟩
    rcases hc with rfl | ⟨so, rfl, -⟩
    · obtain ⟨a1, a2⟩ := B.no_panic hg ho h1 h2 h3 h4
      exact ⟨fun _ => a1, fun h => absurd h a2⟩
    · have hr := panicked h1 h2
      refine ⟨fun h => absurd hr h, fun _ => ?_⟩
      have hp : ∀ t x, (tr₀ ++ [(so, MapConc.Res.panic)])[t]? = some x → Part m op t (plain x.1) := by
        intro t x ht
        have hp := nextW_inl (h2 t x.1 x.2 ht)
        have hlt := (List.getElem?_eq_some_iff.mp ht).1
        rw [List.length_take, Nat.min_eq_left (by omega)] at hp
        obtain ⟨b, e1, hp, e2⟩ := plain_inl hp
        rwa [e2]
      have hlast := hp tr₀.length (so, .panic) (by simp)
      have hone : op.OneKey → tr₀ = [] := by
        intro ho
        rw [← List.length_eq_zero_iff]
        cases op <;> first | exact absurd ho id | (obtain ⟨_, _, _, _, h⟩ := hlast; exact h)
      cases op with
      | mstore data =>
        obtain ⟨k, v, a1, a2⟩ := hlast
        have hlt := (List.getElem?_eq_some_iff.mp a1).1
        refine ⟨tr₀.length, hlt, ?_⟩
        apply List.ext_getElem?
        intro t
        simp only [List.getElem?_map, List.getElem?_take]
        cases ht : tr₀[t]? with
        | none =>
          rw [if_neg (by have := List.getElem?_eq_none_iff.1 ht; omega)]
          rfl
        | some x =>
          have hlt := (List.getElem?_eq_some_iff.mp ht).1
          obtain ⟨k, v, b1, b2⟩ := hp t x (by rw [List.getElem?_append_left hlt, ht])
          rw [if_pos hlt, b1]
          simp [b2, effect]
      | range f =>
        intro x hx
        simp only [List.mem_map] at hx
        obtain ⟨y, -, rfl⟩ := hx
        rfl
      | _ => rw [hone trivial]; rfl
  | inr c =>
    rcases hc with rfl | ⟨_, _, ⟨_, h⟩, _⟩
    · have hlen : m.len ≤ tr.length ∧ r = .unit := by
        cases c
        simp only [Shape.nextW] at h1
        split at h1
        · simp at h1
        · simp only [Sum.inr.injEq] at h1; exact ⟨by omega, h1.symm⟩
      refine ⟨hlen.2, ?_⟩
      have hp : ∀ t x, tr[t]? = some x → x.1 = (t, .inr .clear) ∧ t < m.len := by
        intro t x ht
        have hp := nextW_inl (h2 t x.1 x.2 ht)
        have hlt := (List.getElem?_eq_some_iff.mp ht).1
        rw [List.length_take, Nat.min_eq_left (by omega)] at hp
        exact hp
      apply List.ext_getElem?
      intro t
      simp only [h3, List.getElem?_map, List.getElem?_mapIdx]
      cases ht : tr[t]? with
      | none =>
        rw [List.getElem?_eq_none (by have := List.getElem?_eq_none_iff.1 ht; simp; omega)]
        rfl
      | some x =>
        obtain ⟨e, hlt⟩ := hp t x ht
        rw [List.getElem?_range hlt]
        simp [liftW, ho, effectW, e]
    · simp at h

theorem explainedW (hg : m.Good) (h : (progSW m).mach.Exec mm H) : ∃ L st, ExplainsW m H L st ∧ RangeOkW H L st ∧ PresentOkW H L st := by
  obtain ⟨E, LE, stE, B⟩ := behindW h
  have hist := (progSW m).hist h
  have hop : ∀ i op, Ev.inv i op ∈ H → opOfW mm i = op := by
    intro i op hi
    obtain ⟨x, hx⟩ := (hist.1 _ _).mp hi
    simp [opOfW, hx]
  refine ⟨LE.map (liftW mm), fun n => glue m (stE n), ⟨?_, ?_, ?_, ?_, ?_, ?_⟩, ?_, ?_⟩
  · rw [B.lin.init]; rfl
  · intro n i op r hn
    simp only [List.getElem?_map, Option.map_eq_some_iff] at hn
    obtain ⟨e, he, hl⟩ := hn
    have := effectW_legal (B.mem_part (List.mem_of_getElem? he)) (B.lin.legal n _ _ _ he)
    simp only [liftW, Prod.mk.injEq] at hl
    rw [hl.2] at this
    exact this
  · rw [List.pairwise_map]
    refine List.Pairwise.imp_of_mem ?_ B.lin.order
    intro a b ha hb hn hB
    apply hn
    have := B.inside.before (Nat.unpair b.1).1 (Nat.unpair a.1).1 _ _ _ _ hB (B.inv hb) (B.inv ha)
    rwa [Nat.pair_unpair, Nat.pair_unpair] at this
  · intro x hx
    obtain ⟨e, he, rfl⟩ := List.mem_map.mp hx
    obtain ⟨op, z, h1, -⟩ := B.part _ _ _ (B.inv he)
    exact ⟨op, (hist.1 _ _).mpr ⟨z, h1⟩⟩
  · intro i op hi
    rw [filter_liftW]
    exact B.started (hop i op hi)
  · intro i op r hi hr
    rw [filter_liftW]
    exact B.effects hg ((progSW m).ret_view h hi hr)
  · intro i f r hi hr hp
    obtain ⟨tr, tr₀, h1, h2, hc, h3, h4⟩ := B.returned ((progSW m).ret_view h hi hr)
    rcases hc with rfl | ⟨so, rfl, -⟩
    · exact B.range hg h1 h2 h3 h4
    · exact absurd (panicked h1 h2) hp
  · intro i k f w v hi hr
    obtain ⟨tr, tr₀, h1, h2, hc, h3, h4⟩ := B.returned ((progSW m).ret_view h hi hr)
    rcases hc with rfl | ⟨so, rfl, -⟩
    · match tr, h1, h2, h3, h4 with
      | [], h1, _, _, _ => rw [nextW_inr] at h1; simp [Shape.next, keyed, Shape.on, hg.index] at h1
      | (o, r) :: tr, h1, h2, h3, h4 =>
        obtain ⟨b, e1, ⟨k', b', hkb, e2, -⟩, -⟩ := plain_inl (nextW_inl (h2 0 o r rfl))
        simp only [keyed, Option.some.injEq, Prod.mk.injEq] at hkb e2
        rw [nextW_inr] at h1
        simp only [Shape.next, Sum.inr.injEq] at h1
        obtain rfl : r = .present (some (w, v)) := by
          clear h2 h3 h4 hop hist e1 e2 hi hr
          cases r <;> simp_all [result]
        have hmem := B.mem_of_tr h3 (t := 0) rfl
        obtain ⟨rfl, rfl⟩ := hkb
        rw [e1, e2.1, e2.2] at hmem
        obtain ⟨n, n', o', r', a1, a2, a3, a4⟩ := B.saw _ _ _ _ (B.lin.invoked _ hmem) (h4 0 _ _ rfl).1 (by simp)
        have hsame := List.inj_on_of_nodup_map B.lin.once (List.mem_of_getElem? a4) hmem rfl
        refine ⟨n, n', ?_, B.during (t := 0) (B.lin.invoked _ hmem) a1, a3, a2⟩
        rw [List.getElem?_map, a4, hsame]
        simp [liftW, hop i _ hi, effectW, effect, result]
    · have := panicked h1 h2; simp at this

/-! ## The keys of one shard -/

/-- Observations can be left out of a sequence of operations. -/
theorem seen_legal {σ Op Res : Type} {S : Spec σ Op Res} : ∀ (X : List (Nat × Option Op × Res)) (st : Nat → σ),
    (∀ n i o r, X[n]? = some (i, o, r) → S.seen.step (st n) o r (st (n + 1))) →
    ∃ st' : Nat → σ, st' 0 = st 0 ∧ ∀ n i op r, (X.filterMap unmark)[n]? = some (i, op, r) → S.step (st' n) op r (st' (n + 1)) := by
  intro X
  induction X with
  | nil => intro st _; exact ⟨st, rfl, by simp⟩
  | cons x X ih =>
    intro st h
    obtain ⟨st', e0, h'⟩ := ih (fun n => st (n + 1)) (fun n i o r hn => h (n + 1) i o r (by simpa using hn))
    obtain ⟨j, o, r⟩ := x
    have h0 := h 0 j o r rfl
    cases o with
    | none =>
      have h0 : st 1 = st 0 := h0
      refine ⟨st', by rw [e0]; exact h0, ?_⟩
      intro n i op r' hn
      rw [List.filterMap_cons_none rfl] at hn
      exact h' n i op r' hn
    | some o =>
      refine ⟨fun n => match n with | 0 => st 0 | n + 1 => st' n, rfl, ?_⟩
      intro n i op r' hn
      cases n with
      | zero =>
        simp only [unmark, Option.map_some, List.filterMap_cons_some, List.getElem?_cons_zero, Option.some.injEq, Prod.mk.injEq] at hn
        obtain ⟨rfl, rfl, rfl⟩ := hn
        simp only [e0]
        exact h0
      | succ n => exact h' n i op r' (by simpa [unmark] using hn)

/-- The map restricted to some keys. -/
noncomputable def only (P : Bytes → Prop) (s : M Bytes V) : M Bytes V := by
  classical exact fun k => if P k then s k else none

theorem only_pos {P : Bytes → Prop} {s : M Bytes V} {k : Bytes} (h : P k) : only P s k = s k := by simp [only, h]

theorem only_put {P : Bytes → Prop} {s : M Bytes V} {k : Bytes} (h : P k) (v : Option V) : only P (s.put k v) = (only P s).put k v := by
  funext k'
  simp only [only, MapConc.M.put]
  by_cases e : k' = k
  · subst e; simp [h]
  · simp [e]

theorem only_congr {P : Bytes → Prop} {s s' : M Bytes V} (h : ∀ k, P k → s' k = s k) : only P s' = only P s := by
  funext k
  simp only [only]
  split
  · exact h k ‹_›
  · rfl

theorem SDoes.only {P : Bytes → Prop} {s s' : M Bytes V} {op : SOp V} {r : SRes V} {k : Bytes} (h : SDoes s op r s') (hk : op.On k) (hP : P k) :
    SDoes (SharedConc.only P s) op r (SharedConc.only P s') := by
  have e : ∀ k', k' = k → s k' = SharedConc.only P s k' := by rintro _ rfl; rw [only_pos hP]
  have q : ∀ k', k' = k → P k' := by rintro _ rfl; exact hP
  cases h with
  | load => rw [e _ hk]; exact .load _ _
  | has => rw [e _ hk]; exact .has _ _
  | store => rw [only_put (q _ hk)]; exact .store _ _ _
  | loadOrStore_found _ _ _ h => rw [e _ hk] at h; exact .loadOrStore_found _ _ _ _ h
  | loadOrStore_absent _ _ h => rw [e _ hk] at h; rw [only_put (q _ hk)]; exact .loadOrStore_absent _ _ _ h
  | computeIfAbsent_found _ _ _ h => rw [e _ hk] at h; exact .computeIfAbsent_found _ _ _ _ h
  | computeIfAbsent_absent _ _ _ h => rw [e _ hk] at h; rw [only_put (q _ hk)]; exact .computeIfAbsent_absent _ _ _ _ h
  | computeIfPresent_absent _ _ h => rw [e _ hk] at h; exact .computeIfPresent_absent _ _ _ h
  | computeIfPresent_found _ _ _ _ _ h => rw [e _ hk] at h; rw [only_put (q _ hk)]; exact .computeIfPresent_found _ _ _ _ _ _ h
  | delete => rw [only_put (q _ hk)]; exact .delete _ _
  | range => exact absurd hk id

theorem On.oneKey {op : SOp V} {k : Bytes} (h : op.On k) : op.OneKey := by cases op <;> first | exact trivial | exact absurd h id

theorem mem_about_inv {P : Bytes → Prop} {i : Nat} {o : SO V} : Ev.inv i o ∈ about P H ↔ Ev.inv i o ∈ H ∧ Ev.ret i .panic ∉ H ∧
    ((∃ c, Ev.inv i (.inr c) ∈ H) ∨ ∃ op k, Ev.inv i (.inl op) ∈ H ∧ P k ∧ op.On k) := by
  classical simp [about]

theorem mem_about_ret {P : Bytes → Prop} {i : Nat} {r : SRes V} : Ev.ret i r ∈ about P H ↔ Ev.ret i r ∈ H ∧ Ev.ret i .panic ∉ H ∧
    ((∃ c, Ev.inv i (.inr c) ∈ H) ∨ ∃ op k, Ev.inv i (.inl op) ∈ H ∧ P k ∧ op.On k) := by
  classical simp [about]

theorem before_about {P : Bytes → Prop} {a b : Nat} (h : Before (about P H) a b) : Before H a b := by
  classical
  obtain ⟨A, B, r, op, he, hr, hi⟩ := h
  obtain ⟨A', B', rfl, rfl, rfl⟩ := List.filter_eq_append_iff.1 he
  exact ⟨A', B', r, op, rfl, (List.mem_filter.1 hr).1, (List.mem_filter.1 hi).1⟩

/-- The effects on the keys `P`, all of which are in the shard `x`. -/
noncomputable def keep (P : Bytes → Prop) (x : Nat) (e : Nat × Change V × SRes V) : Nat × Option (SO V) × SRes V := by
  classical exact (e.1, match e.2.1 with
    | .inl op => if ∃ k, P k ∧ op.On k then some (.inl op) else none
    | .inr y => if y = x then some (.inr .clear) else none, e.2.2)

theorem unmark_keep {P : Bytes → Prop} {x : Nat} {e : Nat × Change V × SRes V} {i : Nat} {o : SO V} {r : SRes V} :
    unmark (keep P x e) = some (i, o, r) ↔ i = e.1 ∧ r = e.2.2 ∧
      ((∃ op, e.2.1 = .inl op ∧ o = .inl op ∧ ∃ k, P k ∧ op.On k) ∨ (e.2.1 = .inr x ∧ o = .inr .clear)) := by
  classical
  obtain ⟨j, c, r'⟩ := e
  cases c with
  | inl op =>
    simp only [unmark, keep]
    by_cases h : ∃ k, P k ∧ op.On k
    · rw [if_pos h]
      simp only [Option.map_some, Option.some.injEq, Prod.mk.injEq, Sum.inl.injEq, reduceCtorEq, false_and, or_false]
      constructor
      · rintro ⟨rfl, rfl, rfl⟩; exact ⟨rfl, rfl, _, rfl, rfl, h⟩
      · rintro ⟨rfl, rfl, _, rfl, rfl, -⟩; exact ⟨rfl, rfl, rfl⟩
    · rw [if_neg h]
      simp only [Option.map_none, reduceCtorEq, Sum.inl.injEq, false_and, or_false, false_iff]
      rintro ⟨-, -, _, rfl, -, h'⟩
      exact h h'
  | inr y =>
    simp only [unmark, keep]
    by_cases h : y = x
    · subst h
      simp only [if_true, Option.map_some, Option.some.injEq, Prod.mk.injEq, reduceCtorEq, false_and, exists_false, true_and, false_or]
      constructor
      · rintro ⟨rfl, rfl, rfl⟩; exact ⟨rfl, rfl, rfl⟩
      · rintro ⟨rfl, rfl, rfl⟩; exact ⟨rfl, rfl, rfl⟩
    · rw [if_neg h]
      simp [h]

/-- For the keys of one shard, `Clear` is atomic. -/
theorem ExplainsW.group {L : List (Nat × Change V × SRes V)} {st : Nat → M Bytes V} (hX : ExplainsW m H L st)
    (hone : ∀ i o o', Ev.inv i o ∈ H → Ev.inv i o' ∈ H → o = o')
    {P : Bytes → Prop} {x : Nat} (hx : x < m.len) (hP : ∀ k, P k → m.index k = x)
    (hms : ∀ i data, Ev.inv i (.inl (.mstore data)) ∈ H → ∀ y ∈ data, ¬ P y.1) (hcp : ∀ i k f, Ev.inv i (.inl (.computeIfPresent k f)) ∈ H → ¬ P k) :
    Linearizable strictSharedC (about P H) := by
  classical
  -- an effect on one of the keys is that of the call itself
  have hcall : ∀ e ∈ L, ∀ op k, e.2.1 = .inl op → P k → op.On k → Ev.inv e.1 (.inl op) ∈ H := by
    intro e he op k h1 hk hon
    obtain ⟨o, ho⟩ := hX.invoked e he
    have hs := hX.started _ _ ho
    have hin : e.2.1 ∈ (L.filter fun y => y.1 = e.1).map fun y => y.2.1 := List.mem_map.2 ⟨e, List.mem_filter.2 ⟨he, by simp⟩, rfl⟩
    rw [h1] at hin
    cases o with
    | inr c =>
      have := hs.subset hin
      simp at this
    | inl op' =>
      obtain ⟨l', hl, hs⟩ := hs
      rw [hl] at hin
      simp only [List.mem_map, Sum.inl.injEq, exists_eq_right] at hin
      have key : l' <+: [op'] → Ev.inv e.1 (.inl op) ∈ H := by
        intro h
        have := h.subset hin
        rw [List.mem_singleton] at this
        rw [this]; exact ho
      cases op' with
      | mstore data =>
        have := hs.subset hin
        simp only [List.mem_map] at this
        obtain ⟨y, hy, rfl⟩ := this
        exact absurd ((show y.1 = k from hon) ▸ hk) (hms _ _ ho y hy)
      | range f =>
        have := hs _ hin
        subst this
        exact absurd hon id
      | _ => exact key hs
  have hclear : ∀ e ∈ L, ∀ y, e.2.1 = .inr y → ∃ c, Ev.inv e.1 (.inr c) ∈ H := by
    intro e he y h1
    obtain ⟨o, ho⟩ := hX.invoked e he
    have hs := hX.started _ _ ho
    have hin : e.2.1 ∈ (L.filter fun y => y.1 = e.1).map fun y => y.2.1 := List.mem_map.2 ⟨e, List.mem_filter.2 ⟨he, by simp⟩, rfl⟩
    rw [h1] at hin
    cases o with
    | inr c => exact ⟨c, ho⟩
    | inl op' =>
      obtain ⟨l', hl, -⟩ := hs
      rw [hl] at hin
      simp at hin
  -- calls that panicked have no effect on the keys
  have hgood : ∀ e ∈ L, (∃ op k, e.2.1 = .inl op ∧ P k ∧ op.On k) ∨ (∃ y, e.2.1 = .inr y) → Ev.ret e.1 .panic ∉ H := by
    intro e he hc hp
    rcases hc with ⟨op, k, h1, hk, hon⟩ | ⟨y, h1⟩
    · have ho := hcall e he op k h1 hk hon
      obtain ⟨l', hl, -, ht⟩ := hX.returned _ _ _ ho hp
      have ht := ht rfl
      have : l' = [] := by cases op <;> first | exact absurd hon id | exact ht
      subst this
      have hin : e.2 ∈ (L.filter fun y => y.1 = e.1).map fun y => y.2 := List.mem_map.2 ⟨e, List.mem_filter.2 ⟨he, by simp⟩, rfl⟩
      rw [hl] at hin
      simp at hin
    · obtain ⟨c, ho⟩ := hclear e he y h1
      have := (hX.returned _ _ _ ho hp).1
      simp at this
  obtain ⟨st', e0, hleg⟩ := seen_legal (S := strictSharedC) (L.map (keep P x)) (fun n => only P (st n)) (by
    intro n i o r hn
    rw [List.getElem?_map, Option.map_eq_some_iff] at hn
    obtain ⟨⟨j, c, r'⟩, hn, he⟩ := hn
    have hl := hX.legal n j c r' hn
    have hmem := List.mem_of_getElem? hn
    simp only [keep, Prod.mk.injEq] at he
    obtain ⟨rfl, he, rfl⟩ := he
    cases c with
    | inl op =>
      have hl : SDoes (st n) op r' (st (n + 1)) := hl
      simp only at he
      split at he
      · rename_i h
        obtain ⟨k, hk, hon⟩ := h
        subst he
        refine ⟨hl.only hon hk, ?_⟩
        rintro k' f w v rfl -
        have hk' : k' = k := hon
        exact absurd (hk' ▸ hk) (hcp j k' f (hcall _ hmem _ k rfl hk hon))
      · rename_i h
        subst he
        refine only_congr fun k hk => hl.unchanged fun hw => h ⟨k, hk, ?_⟩
        cases op <;> first | exact hw | exact absurd hw id | cases hl
    | inr y =>
      have hl : r' = .unit ∧ ∀ k, st (n + 1) k = if m.index k = y then none else st n k := hl
      simp only at he
      split at he
      · rename_i h
        subst he h
        refine ⟨hl.1, ?_⟩
        funext k
        simp only [only]
        split
        · rename_i hk; rw [hl.2, if_pos (hP k hk)]
        · rfl
      · rename_i h
        subst he
        refine only_congr fun k hk => ?_
        rw [hl.2, if_neg (by rw [hP k hk]; exact Ne.symm h)])
  have hmemL : ∀ z, z ∈ (L.map (keep P x)).filterMap unmark ↔ ∃ e ∈ L, unmark (keep P x e) = some z := by
    intro z; simp [List.mem_filterMap]
  refine Linearization.linearizable (L := (L.map (keep P x)).filterMap unmark) (st := st') ⟨?_, ?_, ?_, ?_, hleg, ?_⟩
  · rw [List.nodup_iff_count_le_one]
    intro i
    rw [List.count_eq_countP, List.countP_map, List.countP_eq_length_filter, List.filterMap_map, List.filter_filterMap]
    have e : (L.filterMap fun e => ((unmark ∘ keep P x) e).filter ((fun z => z == i) ∘ fun z => z.1)) =
        (L.filter fun e => e.1 = i).filterMap fun e => unmark (keep P x e) := by
      rw [List.filterMap_filter]
      congr 1
      funext e
      cases hu : unmark (keep P x e) with
      | none => simp [hu]
      | some z =>
        have := (unmark_keep.1 hu).1
        simp only [Function.comp, hu, Option.filter, beq_iff_eq]
        rw [this]
        by_cases hei : e.1 = i <;> simp [hei]
    rw [e]
    by_cases hin : ∃ o, Ev.inv i o ∈ H
    · obtain ⟨o, ho⟩ := hin
      have hs := hX.started i o ho
      have hle : ∀ l : List (Nat × Change V × SRes V), (l.filterMap fun e => unmark (keep P x e)).length ≤ l.length := fun l => List.length_filterMap_le _ _
      cases o with
      | inr c =>
        have hcnt : ∀ l : List (Nat × Change V × SRes V), (∀ e ∈ l, ∃ y, e.2.1 = .inr y) →
            (l.filterMap fun e => unmark (keep P x e)).length ≤ (l.map fun e => e.2.1).countP fun c => decide (c = .inr x) := by
          intro l
          induction l with
          | nil => intro _; simp
          | cons e l ih =>
            intro h
            have ih := ih fun e he => h e (List.mem_cons_of_mem _ he)
            rw [List.map_cons, List.countP_cons, List.filterMap_cons]
            obtain ⟨y, hy⟩ := h e (by simp)
            cases hu : unmark (keep P x e) with
            | none => simp only; omega
            | some z =>
              rcases (unmark_keep.1 hu).2.2 with ⟨op, a, -⟩ | ⟨a, -⟩
              · rw [hy] at a; simp at a
              · rw [if_pos (by simp [a])]
                simp only [List.length_cons]; omega
        refine Nat.le_trans (hcnt _ ?_) (Nat.le_trans (hs.sublist.countP_le) ?_)
        · intro e he
          have := hs.subset (List.mem_map.2 ⟨e, he, rfl⟩)
          simp only [List.mem_map] at this
          obtain ⟨y, -, hy⟩ := this
          exact ⟨y, hy.symm⟩
        · rw [List.countP_map]
          have : ((fun c : Change V => decide (c = .inr x)) ∘ Sum.inr) = fun y => y == x := by
            funext y; by_cases hy : y = x <;> simp [Function.comp, hy]
          rw [this, ← List.count_eq_countP]
          exact List.nodup_iff_count_le_one.1 List.nodup_range x
      | inl op =>
        obtain ⟨l', hl, hs⟩ := hs
        have hlen : (L.filter fun e => e.1 = i).length = l'.length := by
          have := congrArg List.length hl
          simpa using this
        by_cases hk : op.OneKey
        · have : l' <+: [op] := by cases op <;> first | exact hs | exact absurd hk id
          have := this.length_le
          exact Nat.le_trans (hle _) (by simpa [hlen] using this)
        · have : ((L.filter fun e => e.1 = i).filterMap fun e => unmark (keep P x e)) = [] := by
            rw [List.filterMap_eq_nil_iff]
            intro e he
            cases hu : unmark (keep P x e) with
            | none => rfl
            | some z =>
              exfalso
              obtain ⟨he, hei⟩ := List.mem_filter.1 he
              simp only [decide_eq_true_eq] at hei
              rcases (unmark_keep.1 hu).2.2 with ⟨op', a, -, k, hPk, hon⟩ | ⟨a, -⟩
              · have := hone _ _ _ (hcall e he op' k a hPk hon) (hei ▸ ho)
                simp only [Sum.inl.injEq] at this
                subst this
                exact hk (On.oneKey hon)
              · obtain ⟨c, hc⟩ := hclear e he _ a
                have := hone _ _ _ hc (hei ▸ ho)
                simp at this
          rw [this]; simp
    · have : (L.filter fun e => e.1 = i) = [] := by
        rw [List.filter_eq_nil_iff]
        intro e he h
        simp only [decide_eq_true_eq] at h
        exact hin (h ▸ hX.invoked e he)
      rw [this]; simp
  · intro z hz
    obtain ⟨e, he, hu⟩ := (hmemL z).1 hz
    obtain ⟨j, o, r⟩ := z
    obtain ⟨rfl, rfl, hc⟩ := unmark_keep.1 hu
    rcases hc with ⟨op, a, rfl, k, hPk, hon⟩ | ⟨a, rfl⟩
    · have := hcall e he op k a hPk hon
      exact mem_about_inv.2 ⟨this, hgood e he (.inl ⟨op, k, a, hPk, hon⟩), .inr ⟨op, k, this, hPk, hon⟩⟩
    · obtain ⟨c, hc⟩ := hclear e he x a
      cases c
      exact mem_about_inv.2 ⟨hc, hgood e he (.inr ⟨x, a⟩), .inl ⟨_, hc⟩⟩
  · intro i r hr
    obtain ⟨hr, hp, hc⟩ := mem_about_ret.1 hr
    rcases hc with ⟨c, hc⟩ | ⟨op, k, ho, hPk, hon⟩
    · obtain ⟨rfl, hl⟩ := hX.returned i _ _ hc hr
      have hin : ((.inr x, .unit) : Change V × SRes V) ∈ (L.filter fun y => y.1 = i).map fun y => y.2 := by
        rw [hl]; exact List.mem_map.2 ⟨x, by simpa using hx, rfl⟩
      obtain ⟨e, he, hee⟩ := List.mem_map.1 hin
      obtain ⟨he, hei⟩ := List.mem_filter.1 he
      simp only [decide_eq_true_eq] at hei
      exact ⟨.inr .clear, (hmemL _).2 ⟨e, he, unmark_keep.2 ⟨hei.symm, by rw [hee], .inr ⟨by rw [hee], rfl⟩⟩⟩⟩
    · obtain ⟨l', hl, hl', -⟩ := hX.returned i _ _ ho hr
      have hl' := hl' (by rintro rfl; exact hp hr)
      have e1 : l' = [(op, r)] := by cases op <;> first | exact hl' | exact absurd hon id
      subst e1
      have hin : ((.inl op, r) : Change V × SRes V) ∈ (L.filter fun y => y.1 = i).map fun y => y.2 := by rw [hl]; simp
      obtain ⟨e, he, hee⟩ := List.mem_map.1 hin
      obtain ⟨he, hei⟩ := List.mem_filter.1 he
      simp only [decide_eq_true_eq] at hei
      exact ⟨.inl op, (hmemL _).2 ⟨e, he, unmark_keep.2 ⟨hei.symm, by rw [hee], .inl ⟨op, by rw [hee], rfl, k, hPk, hon⟩⟩⟩⟩
  · rw [e0, hX.init]
    funext k
    simp [only, strictSharedC, Spec.withX, strictShared]
  · rw [List.pairwise_filterMap, List.pairwise_map]
    refine hX.order.imp ?_
    intro a b hab za hza zb hzb hB
    have e1 := (unmark_keep.1 hza).1
    have e2 := (unmark_keep.1 hzb).1
    rw [e1, e2] at hB
    exact hab (before_about hB)

/-! ## Concrete executions -/

/-- Both shards hold a key. A `Clear` has emptied the first shard and not the second. -/
def halfCleared : List (Ev (SOp Nat ⊕ ClearOp) (SRes Nat)) :=
  [.inv 1 (.inl (.store [97] 1)), .ret 1 .unit, .inv 2 (.inl (.store [98] 2)), .ret 2 .unit, .inv 3 (.inr .clear),
   .inv 4 (.inl (.load [97])), .ret 4 (.value none), .inv 5 (.inl (.load [98])), .ret 5 (.value (some 2)), .ret 3 .unit]

theorem halfCleared_exec : ∃ mm, (progSW (V := Nat) two).mach.Exec mm halfCleared :=
  Mach.exists_exec _ ([.inv 1 (.inl (.store [97] 1))] ++ runsC 13 1 ++ [.inv 2 (.inl (.store [98] 2))] ++ runsC 13 2 ++ [.inv 3 (.inr .clear)] ++
    runsC 8 3 ++ [.inv 4 (.inl (.load [97]))] ++ runsC 4 4 ++ [.inv 5 (.inl (.load [98]))] ++ runsC 11 5 ++ runsC 8 3) _ rfl

/-- An `MStore` of two pairs that panics in the second shard, because of a `Clear`. The first pair was stored before the `Clear`. -/
def halfTorn : List (Ev (SOp Nat ⊕ ClearOp) (SRes Nat)) :=
  [.inv 1 (.inl (.store [97] 1)), .ret 1 .unit, .inv 2 (.inl (.store [98] 2)), .ret 2 .unit, .inv 4 (.inl (.mstore [([97], 3), ([98], 4)])),
   .inv 3 (.inr .clear), .ret 4 .panic, .ret 3 .unit]

theorem halfTorn_exec : ∃ mm, (progSW (V := Nat) two).mach.Exec mm halfTorn :=
  Mach.exists_exec _ ([.inv 1 (.inl (.store [97] 1))] ++ runsC 13 1 ++ [.inv 2 (.inl (.store [98] 2))] ++ runsC 13 2 ++
    [.inv 4 (.inl (.mstore [([97], 3), ([98], 4)]))] ++ runsC 9 4 ++ [.inv 3 (.inr .clear)] ++ runsC 11 3 ++ runsC 3 4 ++ runsC 5 3) _ rfl

/-- A `Range` during a `Clear`. -/
theorem demoRangeW : ∃ mm, (progSW (V := Nat) two).mach.Exec mm
    [.inv 1 (.inl (.store [97] 1)), .ret 1 .unit, .inv 2 (.inl (.store [98] 2)), .ret 2 .unit, .inv 4 (.inl (.range fun _ _ _ => true)),
     .inv 3 (.inr .clear), .ret 4 (.visited [([98], 2)] true), .ret 3 .unit] :=
  Mach.exists_exec _ ([.inv 1 (.inl (.store [97] 1))] ++ runsC 13 1 ++ [.inv 2 (.inl (.store [98] 2))] ++ runsC 13 2 ++
    [.inv 4 (.inl (.range fun _ _ _ => true))] ++ [.inv 3 (.inr .clear)] ++ runsC 8 3 ++ runsC 15 4 ++ runsC 8 3) _ rfl

/-! ## C119 -/

variable {opts : List Int}

/-- **C119.** Every concurrent history of a `SharedMap`, with `Clear`s that overlap anything, has an explanation in which a `Clear` that has
returned has emptied every shard, in order, each at one instant of the call; every other call that has returned has its effects as in C88; a call
that panicked has none, apart from an `MStore`, which has stored some of its first pairs but not all. -/
theorem C119_effects (h1 : 1 ≤ requested opts) (h2 : requested opts ≤ 2^31) (hm : newShape opts = some m) (h : (progSW m).mach.Exec mm H) :
    ∃ L st, ExplainsW m H L st ∧ RangeOkW H L st ∧ PresentOkW H L st :=
  explainedW (shape_good h1 h2 hm) h

example : ∃ L st, ExplainsW two halfTorn L st ∧ RangeOkW halfTorn L st ∧ PresentOkW halfTorn L st :=
  halfTorn_exec.elim fun _ h => C119_effects (opts := [2]) (by decide) (by decide) rfl h
example := demoRangeW.elim fun _ h => C119_effects (opts := [2]) (by decide) (by decide) rfl h

/-- **C119.** Only a call other than `Clear` panics, and only if a `Clear` overlaps it. -/
theorem C119_panics (h1 : 1 ≤ requested opts) (h2 : requested opts ≤ 2^31) (hm : newShape opts = some m) (h : (progSW m).mach.Exec mm H) {i : Nat}
    (hr : Ev.ret i .panic ∈ H) : (∃ op, Ev.inv i (.inl op) ∈ H) ∧ ∃ j, Ev.inv j (.inr .clear) ∈ H ∧ ¬ Before H j i ∧ ¬ Before H i j := by
  obtain ⟨E, LE, stE, B⟩ := behindW h
  have hist := (progSW m).hist h
  obtain ⟨o, ho⟩ := hist.2 i _ hr
  have hi := (hist.1 i o).mpr ⟨_, ho⟩
  obtain ⟨tr, tr₀, e1, e2, hc, e3, e4⟩ := B.returned ho
  have hop : ∃ op, o = .inl op := by
    cases o with
    | inl op => exact ⟨op, rfl⟩
    | inr c => have := (B.effects (shape_good h1 h2 hm) ho).1; simp at this
  obtain ⟨op, rfl⟩ := hop
  refine ⟨⟨op, hi⟩, ?_⟩
  rcases hc with rfl | ⟨so, rfl, -, hp⟩
  · exact absurd rfl (B.no_panic (shape_good h1 h2 hm) (by simp [opOfW, ho]) e1 e2 e3 e4).2
  · obtain ⟨x, b, j, b1, b2, b3, b4⟩ := B.torn _ hp
    have b2' := b2
    rw [← Nat.pair_unpair j] at b2'
    obtain ⟨oj, z, c1, c2⟩ := B.part _ _ _ b2'
    have hcl : oj = .inr .clear := by
      cases oj with
      | inr c => rfl
      | inl op' => obtain ⟨_, h, -⟩ := c2; simp at h
    subst hcl
    refine ⟨(Nat.unpair j).1, (hist.1 _ _).mpr ⟨_, c1⟩, fun hB => b3 ?_, fun hB => b4 ?_⟩
    · have := B.inside.before _ _ _ _ _ _ hB b2' b1
      rwa [Nat.pair_unpair] at this
    · have := B.inside.before _ _ _ _ _ _ hB b1 b2'
      rwa [Nat.pair_unpair] at this

example := halfTorn_exec.elim fun _ h => C119_panics (opts := [2]) (by decide) (by decide) rfl h (i := 4) (by simp [halfTorn])

/-- **C119.** For every single key a `SharedMap` with `Clear` is linearizable, whatever overlaps: the `Load`s, `Has`s, `Store`s, `LoadOrStore`s,
`ComputeIfAbsent`s and `Delete`s of the key that did not panic, with all `Clear`s, are those of an ordinary map on which `Clear` removes everything,
if no `MStore` has the key and there is no `ComputeIfPresent` on it. -/
theorem C119_key_partial (h1 : 1 ≤ requested opts) (h2 : requested opts ≤ 2^31) (hm : newShape opts = some m) (h : (progSW m).mach.Exec mm H) (k : Bytes)
    (hms : ∀ i data, Ev.inv i (.inl (.mstore data)) ∈ H → ∀ y ∈ data, y.1 ≠ k)
    (hcp : ∀ i f, Ev.inv i (.inl (.computeIfPresent k f)) ∉ H) : Linearizable strictSharedC (about (· = k) H) := by
  have hg := shape_good h1 h2 hm
  obtain ⟨L, st, hX, -⟩ := explainedW hg h
  exact hX.group (fun i o o' => (progSW m).inv_unique h) (x := m.index k) (hg.index k) (by rintro _ rfl; rfl) hms
    (by rintro i _ f hi rfl; exact hcp i f hi)

/-- What is left of `halfCleared` for the key `[98]`: the `Load` that precedes the effect of the `Clear`. -/
theorem about_halfCleared : about (· = [98]) halfCleared = [.inv 2 (.inl (.store [98] 2)), .ret 2 .unit, .inv 3 (.inr .clear),
    .inv 5 (.inl (.load [98])), .ret 5 (.value (some 2)), .ret 3 .unit] := by
  have h3 : ∃ c, (Ev.inv 3 (.inr c) : Ev (SOp Nat ⊕ ClearOp) (SRes Nat)) ∈ halfCleared := ⟨.clear, by simp [halfCleared]⟩
  have hp : ∀ i, (Ev.ret i .panic : Ev (SOp Nat ⊕ ClearOp) (SRes Nat)) ∉ halfCleared := by simp [halfCleared]
  have e : about (· = [98]) halfCleared = halfCleared.filter fun e => match e with | .inv i _ | .ret i _ => i != 1 && i != 4 := by
    refine List.filter_congr fun e he => ?_
    simp only [halfCleared, List.mem_cons, List.not_mem_nil, or_false] at he
    rcases he with rfl | rfl | rfl | rfl | rfl | rfl | rfl | rfl | rfl | rfl <;> simp [hp, h3] <;> simp [halfCleared, SOp.On]
  rw [e]; rfl

example : Linearizable strictSharedC ([.inv 2 (.inl (.store [98] 2)), .ret 2 .unit, .inv 3 (.inr .clear), .inv 5 (.inl (.load [98])),
    .ret 5 (.value (some 2)), .ret 3 .unit] : List (Ev (SOp Nat ⊕ ClearOp) (SRes Nat))) :=
  about_halfCleared ▸ halfCleared_exec.elim fun _ h => C119_key_partial (opts := [2]) (by decide) (by decide) rfl h [98] (by simp [halfCleared])
    (by simp [halfCleared])

/-- A `SharedMap` with one shard. -/
abbrev one : Shape := ⟨1, 1, 0⟩

/-- **C119.** With one shard a `SharedMap` with `Clear` is linearizable whatever overlaps, apart from the calls that panicked. -/
theorem C119_one_shard_partial (h1 : requested opts = 1) (hm : newShape opts = some m) (h : (progSW m).mach.Exec mm H)
    (hk : ∀ i op, Ev.inv i (.inl op) ∈ H → op.OneKey ∧ ∀ k f, op ≠ .computeIfPresent k f) : Linearizable strictSharedC (about (fun _ => True) H) := by
  have hg := shape_good (by rw [h1]) (by rw [h1]; decide) hm
  have hlen : m.len = 1 := by
    obtain ⟨m0, e1, ⟨L, e2, -, e3⟩, -⟩ := (Shared.C26_shards (V := Unit) opts).2 (by rw [h1]) (by rw [h1]; decide)
    simp only [newShape, e1, Option.map_some, Option.some.injEq] at hm
    rw [← hm]
    have := e3 0 (by rw [h1]; decide)
    have h0 := Nat.two_pow_pos L
    simp only
    omega
  obtain ⟨L, st, hX, -⟩ := explainedW hg h
  refine hX.group (fun i o o' => (progSW m).inv_unique h) (x := 0) (by omega) (fun k _ => by have := hg.index k; omega) ?_ ?_
  · intro i data hi
    exact absurd (hk _ _ hi).1 id
  · intro i k f hi
    exact absurd rfl ((hk _ _ hi).2 k f)

/-- A `Store` that panics because of a `Clear`, with one shard. -/
def tornOne : List (Ev (SOp Nat ⊕ ClearOp) (SRes Nat)) :=
  [.inv 1 (.inl (.store [97] 1)), .ret 1 .unit, .inv 2 (.inl (.store [98] 2)), .ret 2 .unit, .inv 4 (.inl (.store [97] 3)), .inv 3 (.inr .clear),
   .ret 4 .panic, .inv 5 (.inl (.load [98])), .ret 5 (.value none), .ret 3 .unit]

theorem tornOne_exec : ∃ mm, (progSW (V := Nat) one).mach.Exec mm tornOne :=
  Mach.exists_exec _ ([.inv 1 (.inl (.store [97] 1))] ++ runsC 13 1 ++ [.inv 2 (.inl (.store [98] 2))] ++ runsC 9 2 ++
    [.inv 4 (.inl (.store [97] 3))] ++ runsC 2 4 ++ [.inv 3 (.inr .clear)] ++ runsC 5 3 ++ runsC 3 4 ++ [.inv 5 (.inl (.load [98]))] ++
    runsC 4 5 ++ runsC 4 3) _ rfl

example : Linearizable strictSharedC (about (fun _ => True) tornOne) :=
  tornOne_exec.elim fun _ h => C119_one_shard_partial (opts := [1]) rfl rfl h (by
    intro i op hi
    simp only [tornOne, List.mem_cons, Ev.inv.injEq, reduceCtorEq, List.not_mem_nil, or_false, false_or, Sum.inl.injEq, and_false] at hi
    rcases hi with ⟨_, rfl⟩ | ⟨_, rfl⟩ | ⟨_, rfl⟩ | ⟨_, rfl⟩ <;> exact ⟨trivial, by simp⟩)

/-- **`Clear` is not atomic for keys of different shards.** There is an execution in which a `Load` finds a key removed by a `Clear` and a later
`Load` still finds a key of another shard, both stored before the `Clear` was called; its history is not linearizable with respect to an ordinary
map on which `Clear` removes everything. -/
theorem C119_atomic_refuted : ∃ mm, (progSW (V := Nat) two).mach.Exec mm halfCleared ∧ ¬ Linearizable sharedSpecC halfCleared := by
  obtain ⟨mm, hm⟩ := halfCleared_exec
  refine ⟨mm, hm, ?_⟩
  rintro ⟨L, h1, h2, h3, ⟨s, h4⟩, h5⟩
  obtain ⟨st, e1, -, e3⟩ := states_of_runs h4
  have hin : ∀ i o r, (i, o, r) ∈ L → (i = 1 ∧ o = .inl (.store [97] 1)) ∨ (i = 2 ∧ o = .inl (.store [98] 2)) ∨ (i = 3 ∧ o = .inr .clear) ∨
      (i = 4 ∧ o = .inl (.load [97])) ∨ (i = 5 ∧ o = .inl (.load [98])) := by
    intro i o r h
    have := h2 _ h
    simpa [halfCleared] using this
  have hpos : ∀ i o r, Ev.inv i o ∈ halfCleared → Ev.ret i r ∈ halfCleared → ∃ p : Nat, L[p]? = some (i, o, r) := by
    intro i o r hi hr
    obtain ⟨o', ho'⟩ := h3 i r hr
    have : o' = o := (progSW two).inv_unique hm (h2 _ ho') hi
    exact List.getElem?_of_mem (this ▸ ho')
  have huniq : ∀ (n p i : Nat) (o o' : SOp Nat ⊕ ClearOp) (r r' : SRes Nat), L[n]? = some (i, o, r) → L[p]? = some (i, o', r') → n = p := by
    intro n p i o o' r r' hn hp
    have a := (List.getElem?_eq_some_iff.mp hn).1
    exact (List.getElem?_inj (by simpa using a) h1).1 (by simp [hn, hp])
  have hlt : ∀ (p q i j : Nat) (o o' : SOp Nat ⊕ ClearOp) (r r' : SRes Nat), L[p]? = some (i, o, r) → L[q]? = some (j, o', r') → i ≠ j →
      Before halfCleared i j → p < q := by
    intro p q i j o o' r r' hp hq hne hB
    rcases Nat.lt_trichotomy p q with h | h | h
    · exact h
    · subst h; rw [hp] at hq; simp [hne] at hq
    · exfalso
      obtain ⟨a1, a2⟩ := List.getElem?_eq_some_iff.mp hp
      obtain ⟨b1, b2⟩ := List.getElem?_eq_some_iff.mp hq
      have := List.pairwise_iff_getElem.mp h5 q p b1 a1 h
      rw [a2, b2] at this
      exact this hB
  obtain ⟨p1, q1⟩ := hpos 1 (.inl (.store [97] 1)) .unit (by simp [halfCleared]) (by simp [halfCleared])
  obtain ⟨p2, q2⟩ := hpos 2 (.inl (.store [98] 2)) .unit (by simp [halfCleared]) (by simp [halfCleared])
  obtain ⟨p3, q3⟩ := hpos 3 (.inr .clear) .unit (by simp [halfCleared]) (by simp [halfCleared])
  obtain ⟨p4, q4⟩ := hpos 4 (.inl (.load [97])) (.value none) (by simp [halfCleared]) (by simp [halfCleared])
  obtain ⟨p5, q5⟩ := hpos 5 (.inl (.load [98])) (.value (some 2)) (by simp [halfCleared]) (by simp [halfCleared])
  have l14 := hlt _ _ _ _ _ _ _ _ q1 q4 (by decide) ⟨halfCleared.take 5, halfCleared.drop 5, .unit, .inl (.load [97]), rfl, by simp [halfCleared], by simp [halfCleared]⟩
  have l23 := hlt _ _ _ _ _ _ _ _ q2 q3 (by decide) ⟨halfCleared.take 4, halfCleared.drop 4, .unit, .inr .clear, rfl, by simp [halfCleared], by simp [halfCleared]⟩
  have l45 := hlt _ _ _ _ _ _ _ _ q4 q5 (by decide) ⟨halfCleared.take 7, halfCleared.drop 7, .value none, .inl (.load [98]), rfl, by simp [halfCleared], by simp [halfCleared]⟩
  have hlen := (List.getElem?_eq_some_iff.mp q5).1
  -- what every effect does
  have hstep : ∀ n, n < L.length → (n = p1 ∧ st (n + 1) [97] = some 1 ∧ st (n + 1) [98] = st n [98]) ∨ (n = p2 ∧ st (n + 1) [97] = st n [97]) ∨
      (n = p3 ∧ st (n + 1) [98] = none) ∨ (st (n + 1) [97] = st n [97] ∧ st (n + 1) [98] = st n [98]) := by
    intro n hn
    obtain ⟨⟨i, o, r⟩, hx⟩ : ∃ x, L[n]? = some x := ⟨_, List.getElem?_eq_getElem hn⟩
    have hl := e3 _ _ _ _ hx
    rcases hin _ _ _ (List.mem_of_getElem? hx) with ⟨rfl, rfl⟩ | ⟨rfl, rfl⟩ | ⟨rfl, rfl⟩ | ⟨rfl, rfl⟩ | ⟨rfl, rfl⟩
    · left
      replace hl : SDoes _ _ _ _ := hl
      refine ⟨huniq _ _ _ _ _ _ _ hx q1, ?_⟩
      generalize st (n + 1) = s at hl
      cases hl
      simp [MapConc.M.put]
    · right; left
      replace hl : SDoes _ _ _ _ := hl
      refine ⟨huniq _ _ _ _ _ _ _ hx q2, ?_⟩
      generalize st (n + 1) = s at hl
      cases hl
      simp [MapConc.M.put]
    · right; right; left
      exact ⟨huniq _ _ _ _ _ _ _ hx q3, by rw [hl.2]⟩
    all_goals
      right; right; right
      replace hl : SDoes _ _ _ _ := hl
      generalize st (n + 1) = s at hl
      cases hl
      exact ⟨rfl, rfl⟩
  have hA : ∀ n, n ≤ L.length → p1 < n → n ≤ p3 → st n [97] = some 1 := by
    intro n
    induction n with
    | zero => intro _ h; omega
    | succ n ih =>
      intro hn a b
      rcases hstep n hn with ⟨-, h, -⟩ | ⟨e, h⟩ | ⟨rfl, h⟩ | ⟨h, -⟩
      · exact h
      · rw [h]
        exact ih (by omega) (by have : n ≠ p1 := fun e' => by rw [← e, e', q1] at q2; simp at q2
                                omega) (by omega)
      · omega
      · rw [h]
        by_cases e : n = p1
        · subst e
          have hl : SDoes _ _ _ _ := e3 _ _ _ _ q1
          rw [← h]
          generalize st (n + 1) = s at hl
          cases hl
          simp [MapConc.M.put]
        · exact ih (by omega) (by omega) (by omega)
  have hB : ∀ n, n ≤ L.length → p3 < n → st n [98] = none := by
    intro n
    induction n with
    | zero => intro _ h; omega
    | succ n ih =>
      intro hn a
      rcases hstep n hn with ⟨e, -, h⟩ | ⟨e, h⟩ | ⟨e, h⟩ | ⟨-, h⟩
      · rw [h]
        exact ih (by omega) (by have : n ≠ p3 := fun e' => by rw [← e, e', q3] at q1; simp at q1
                                omega)
      · omega
      · exact h
      · by_cases e : n = p3
        · subst e
          rw [(e3 _ _ _ _ q3).2]
        · rw [h]
          exact ih (by omega) (by omega)
  have v4 : st p4 [97] = none := by
    have hl : SDoes _ _ _ _ := e3 _ _ _ _ q4
    generalize st (p4 + 1) = s at hl
    generalize hr : SRes.value none = r at hl
    cases hl
    simpa using hr.symm
  have v5 : st p5 [98] = some 2 := by
    have hl : SDoes _ _ _ _ := e3 _ _ _ _ q5
    generalize st (p5 + 1) = s at hl
    generalize hr : SRes.value (some 2) = r at hl
    cases hl
    simpa using hr.symm
  have l34 : p3 < p4 := by
    refine Classical.byContradiction fun h => ?_
    rw [hA p4 (by omega) l14 (by omega)] at v4
    simp at v4
  rw [hB p5 (by omega) (by omega)] at v5
  simp at v5

end Verif.XSync.SharedConc

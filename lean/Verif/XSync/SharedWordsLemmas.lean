import Verif.XSync.SharedWords
/-!
# Lemmas about `SharedMap.Clear` concurrent with other operations
-/
namespace Verif.XSync.SharedConc
open Verif.Conc Verif.Go
open Verif.XSync.MapConc (M ClearOp)
open Verif.XSync.MapWords (GW PtW progW)

variable {V : Type}

/-- Abbreviation. -/
abbrev SO (V : Type) := SOp V ⊕ ClearOp
/-- Abbreviation. -/
abbrev BO (V : Type) := BOp V ⊕ ClearOp
/-- Proof only: part of a measure; models no code. -/
abbrev TrW (V : Type) := List ((Nat × BO V) × BRes V)

/-- The calls of shards a call makes. -/
def PartW (m : Shape) (o : SO V) (t : Nat) (so : Nat × BO V) : Prop :=
  match o with
  | .inl op => ∃ b, so.2 = .inl b ∧ Part m op t (so.1, b)
  | .inr _ => so = (t, .inr .clear) ∧ t < m.len

theorem nextW_inl {m : Shape} {o : SO V} {tr : TrW V} {so : Nat × BO V} (h : m.nextW o tr = .inl so) : PartW m o tr.length so := by
  cases o with
  | inl op =>
    simp only [Shape.nextW] at h
    split at h
    · rename_i x b hn
      simp only [Sum.inl.injEq] at h
      subst h
      exact ⟨b, rfl, next_inl hn⟩
    · simp at h
  | inr c =>
    cases c
    simp only [Shape.nextW] at h
    split at h
    · simp only [Sum.inl.injEq] at h
      subst h
      exact ⟨rfl, ‹_›⟩
    · simp at h

/-- The next call does not depend on the calls but on their results. -/
theorem next_map {α β : Type} (m : Shape) (op : SOp V) (f : α → β) (tr : List (α × BRes V)) :
    m.next op (tr.map fun x => (f x.1, x.2)) = m.next op tr := by
  cases op with
  | mstore data =>
    simp only [Shape.next, List.getLast?_map, List.length_map]
    rcases tr.getLast? with _ | ⟨a, r⟩
    · rfl
    · cases r <;> rfl
  | range g =>
    have hv : visits (tr.map fun x => (f x.1, x.2)) = visits tr := by simp [visits, List.flatMap_map]
    simp only [Shape.next, List.getLast?_map, List.length_map, hv]
    rcases tr.getLast? with _ | ⟨a, r⟩
    · rfl
    · cases r with
      | visited l b => cases b <;> rfl
      | _ => rfl
  | _ => cases tr <;> rfl

/-- After a panic of a shard the call panics. -/
theorem next_panic {α : Type} {m : Shape} {op : SOp V} {tr : List (α × BRes V)} {x : α} (h : tr.getLast? = some (x, .panic))
    (hk : tr.length = 1 ∨ ¬ op.OneKey) : m.next op tr = .inr .panic := by
  have hone : op.OneKey → tr = [(x, .panic)] := by
    intro ho
    rcases hk with hk | hk
    · obtain ⟨y, rfl⟩ := List.length_eq_one_iff.1 hk
      simpa using h
    · exact absurd ho hk
  cases op with
  | mstore data => simp only [Shape.next, h]
  | range f => simp only [Shape.next, h]
  | _ => rw [hone trivial]; rfl

theorem next_done {α : Type} {m : Shape} {op : SOp V} {tr : List (α × BRes V)} {x : α} (h : tr.getLast? = some (x, .panic)) {o : Nat × BOp V} :
    m.next op tr ≠ .inl o := by
  intro he
  by_cases ho : op.OneKey
  · have hp := next_inl he
    have h0 : tr.length = 0 := by
      cases op <;> first | exact absurd ho id | (obtain ⟨_, _, _, _, h⟩ := hp; exact h)
    rw [List.length_eq_zero_iff] at h0
    subst h0
    simp at h
  · rw [next_panic h (.inr ho)] at he
    simp at he

/-- The operation of a shard behind a call. -/
def plain : Nat × BO V → Nat × BOp V
  | (x, .inl b) => (x, b)
  | (x, .inr _) => (x, .load [])

theorem nextW_plain {m : Shape} {op : SOp V} {tr : TrW V} : m.next op (tr.map fun x => (plain x.1, x.2)) = m.next op tr := next_map m op plain tr

theorem script_plain {m : Shape} {op : SOp V} {tr : TrW V} (h : ∀ t o r', tr[t]? = some (o, r') → m.nextW (.inl op) (tr.take t) = .inl o) :
    ∀ t o r', (tr.map fun x => (plain x.1, x.2))[t]? = some (o, r') → m.next op ((tr.map fun x => (plain x.1, x.2)).take t) = .inl o := by
  intro t o r' ht
  rw [List.getElem?_map, Option.map_eq_some_iff] at ht
  obtain ⟨⟨so, r⟩, h1, h2⟩ := ht
  simp only [Prod.mk.injEq] at h2
  obtain ⟨rfl, rfl⟩ := h2
  have := h t so r h1
  rw [← List.map_take, nextW_plain]
  simp only [Shape.nextW] at this
  split at this
  · rename_i x b hn
    simp only [Sum.inl.injEq] at this
    subst this
    exact hn
  · simp at this

theorem nextW_inr {m : Shape} {op : SOp V} {tr : TrW V} {r : SRes V} : m.nextW (.inl op) tr = .inr r ↔ m.next op tr = .inr r := by
  simp only [Shape.nextW]
  constructor <;> intro h
  · split at h
    · simp at h
    · rename_i hn; simp only [Sum.inr.injEq] at h; rw [hn, h]
  · rw [h]

/-- The effect behind a call of a shard. -/
def effectW (o : SO V) (so : Nat × BO V) (r : BRes V) : Change V × SRes V :=
  match o, so.2 with
  | .inl op, .inl b => (.inl (effect op b r).1, (effect op b r).2)
  | _, _ => (.inr so.1, .unit)

theorem effectW_legal {m : Shape} {o : SO V} {t : Nat} {so : Nat × BO V} {r : BRes V} {s s' : Nat → M Bytes V} (hp : PartW m o t so)
    (h : (famSpec MapConc.mapSpecC).step s so r s') : Does m (glue m s) (effectW o so r).1 (effectW o so r).2 (glue m s') := by
  cases o with
  | inl op =>
    obtain ⟨x, b'⟩ := so
    obtain ⟨b, hb, hp⟩ := hp
    simp only at hb
    subst hb
    exact effect_legal hp (show (famSpec MapConc.mapSpec).step s (x, b) r s' from h)
  | inr c =>
    obtain ⟨rfl, -⟩ := hp
    obtain ⟨h1, h2⟩ := h
    have h1 : r = .unit ∧ s' t = fun _ => none := h1
    refine ⟨rfl, fun k => ?_⟩
    simp only [glue]
    split
    · rename_i hk; rw [hk, h1.2]
    · rename_i hk; rw [h2 _ hk]

theorem coupled_next {Op' Res' Op Res S' : Type} {C : Client Op' Res' Op Res} {pc : Proc Op' Res' (CPt Op Res S')} {sub : Nat → Proc (Nat × Op) Res S'}
    (h : Coupled C pc sub) {t : Nat} {o : Nat × Op} {x : S' ⊕ Res} (hv : (sub t).view = some (o, x)) :
    ∃ op z tr, pc.view = some (op, z) ∧ tr.length = t ∧ C.next op tr = .inl o ∧ C.Script op tr ∧ ∀ t' o' r', tr[t']? = some (o', r') → sub t' = .done o' r' := by
  have hsc : ∀ {op : Op'} {tr : List ((Nat × Op) × Res)} {p : Proc (Nat × Op) Res S'}, C.Script op tr → (∀ t, sub t = subs tr p t) →
      (∀ o' x', p.view = some (o', x') → C.next op tr = .inl o') →
      ∃ tr, tr.length = t ∧ C.next op tr = .inl o ∧ C.Script op tr ∧ ∀ t' o' r', tr[t']? = some (o', r') → sub t' = .done o' r' := by
    intro op tr p h1 h2 h3
    rw [h2, subs] at hv
    split at hv
    · rename_i o' r' htr
      simp only [Proc.view, Option.some.injEq, Prod.mk.injEq] at hv
      obtain ⟨rfl, rfl⟩ := hv
      have hlt := (List.getElem?_eq_some_iff.mp htr).1
      refine ⟨tr.take t, by rw [List.length_take]; omega, h1 t _ _ htr, ?_, ?_⟩
      · intro t' o'' r'' ht
        rw [List.getElem?_take] at ht
        split at ht
        · have := h1 t' _ _ ht
          rwa [List.take_take, Nat.min_eq_left (by omega)]
        · simp at ht
      · intro t' o'' r'' ht
        rw [List.getElem?_take] at ht
        split at ht
        · rw [h2, subs, ht]
        · simp at ht
    · split at hv
      · rename_i ht
        subst ht
        exact ⟨tr, rfl, h3 _ _ hv, h1, fun t' o'' r'' ht => by rw [h2, subs, ht]⟩
      · simp [Proc.view] at hv
  cases pc with
  | idle => have := h t; simp only [this] at hv; simp [Proc.view] at hv
  | «at» op s =>
    refine ⟨op, .inl s, ?_⟩
    cases s with
    | between tr => obtain ⟨tr', h'⟩ := hsc h.1 h.2 (by simp [Proc.view]); exact ⟨tr', rfl, h'⟩
    | inner tr o' s =>
      obtain ⟨tr', h'⟩ := hsc h.1 h.2.2 (by
        intro o'' x' he
        simp only [Proc.view, Option.some.injEq, Prod.mk.injEq] at he
        rw [← he.1]; exact h.2.1)
      exact ⟨tr', rfl, h'⟩
  | ret op r => obtain ⟨tr, h1, -, h2⟩ := h; obtain ⟨tr', h'⟩ := hsc h1 h2 (by simp [Proc.view]); exact ⟨op, .inr r, tr', rfl, h'⟩
  | done op r => obtain ⟨tr, h1, -, h2⟩ := h; obtain ⟨tr', h'⟩ := hsc h1 h2 (by simp [Proc.view]); exact ⟨op, .inr r, tr', rfl, h'⟩

variable [DecidableEq V]
set_option linter.unusedSectionVars false

/-- Proof only: part of a measure; models no code. -/
abbrev CfW (V : Type) := Conf (Nat → GW Bytes V) (SO V) (SRes V) (CPt (BO V) (BRes V) (PtW Bytes V))

/-- Behind a history of the `SharedMap` there is a history of calls of the shards, linearized apart from the calls that panicked. -/
structure BehindW (m : Shape) (mm : CfW V) (H : List (Ev (SO V) (SRes V))) (E : List (Ev (Nat × BO V) (BRes V)))
    (LE : List (Nat × (Nat × BO V) × BRes V)) (stE : Nat → Nat → M Bytes V) : Prop where
  inside : Inside H E
  lin : LinearizationBut (famSpec MapConc.mapSpecC) (fun r => r = .panic) E LE stE
  part : ∀ i t o, Ev.inv (Nat.pair i t) o ∈ E → ∃ op z, mm.view i = some (op, z) ∧ PartW m op t o
  once : ∀ j o o', Ev.inv j o ∈ E → Ev.inv j o' ∈ E → o = o'
  alive : ∀ i t t' o, Ev.inv (Nat.pair i t) o ∈ E → t' < t → ∃ r, Ev.ret (Nat.pair i t') r ∈ E ∧ r ≠ .panic
  ended : ∀ i op r, mm.view i = some (op, .inr r) → ∃ tr : TrW V, m.nextW op tr = .inr r ∧
    (∀ t o r', tr[t]? = some (o, r') → m.nextW op (tr.take t) = .inl o) ∧
    (∀ t o r', tr[t]? = some (o, r') → Ev.inv (Nat.pair i t) o ∈ E ∧ Ev.ret (Nat.pair i t) r' ∈ E) ∧
    ∀ t o, Ev.inv (Nat.pair i t) o ∈ E → t < tr.length
  saw : ∀ j x b r, Ev.inv j (x, .inl b) ∈ E → Ev.ret j r ∈ E → r ≠ .panic →
    MapConc.ResOk (fun k y => ∃ n, During E LE j n ∧ stE n x k = y)
      (fun k w => ∃ n n' o' r', During E LE j n ∧ stE n x k = some w ∧ n ≤ n' ∧ LE[n']? = some (j, o', r')) b r
  unit : ∀ j x c r, Ev.inv j (x, .inr c) ∈ E → Ev.ret j r ∈ E → r = .unit
  torn : ∀ j, Ev.ret j .panic ∈ E → ∃ x b j', Ev.inv j (x, .inl b) ∈ E ∧ Ev.inv j' (x, .inr .clear) ∈ E ∧ ¬ Before E j' j ∧ ¬ Before E j j'

theorem behindW {m : Shape} {mm : CfW V} {H : List (Ev (SO V) (SRes V))} (h : (progSW m).mach.Exec mm H) : ∃ E LE stE, BehindW m mm H E LE stE := by
  obtain ⟨mE, E, hE, -, hc, hI⟩ := (clientW m).decompose progW (g₀ := fun _ => progW.init) h
  have hpart := fun x => progW.family_part hE x
  choose Hx hEx hPx using hpart
  have hrel := fun x => MapWords.rel_exec (hEx x)
  have hmk := fun x => MapWords.rel_marked (hrel x)
  choose X st hX hO using hmk
  have hret : ∀ j r, Ev.ret j r ∈ E → ∃ o, Ev.inv j o ∈ E := fun j r hr => (progW.family.from fun _ => progW.init).ret_inv hE hr
  have hone : ∀ j o o', Ev.inv j o ∈ E → Ev.inv j o' ∈ E → o = o' := fun j o o' h1 h2 => (progW.family.from fun _ => progW.init).inv_unique hE h1 h2
  obtain ⟨Y, stY, hY, hYo⟩ := Marked.family hX hPx hret hone ((progW.family.from fun _ => progW.init).before_irrefl hE)
  obtain ⟨LE, stE, hL, hLo⟩ := hY.linearization
  have hist := (progW.family.from fun _ => progW.init).hist hE
  have hunit : ∀ j x c r, Ev.inv j (x, .inr c) ∈ E → Ev.ret j r ∈ E → r = .unit := by
    intro j x c r hi hr
    obtain ⟨n, W, Hp, cl, h1, h2, h3⟩ := hrel x
    obtain ⟨o, hv⟩ := h2.ret j r (((hPx x).ret j r).2 ⟨hr, _, hi⟩)
    obtain ⟨y, hy⟩ := (h2.inv j (.inr c)).1 (((hPx x).inv j _).2 hi)
    rw [hv] at hy
    simp only [Option.some.injEq, Prod.mk.injEq] at hy
    rw [hy.1] at hv
    exact h2.unit _ _ _ hv
  refine ⟨E, LE, stE, hI, hL, ?_, hone, ?_, ?_, ?_, hunit, ?_⟩
  · intro i t o hi
    obtain ⟨x, hx⟩ := (hist.1 _ _).mp hi
    obtain ⟨op, z, tr, h1, rfl, h3, -⟩ := coupled_next (hc i) hx
    exact ⟨op, z, h1, nextW_inl h3⟩
  · intro i t t' o hi hlt
    obtain ⟨x, hx⟩ := (hist.1 _ _).mp hi
    obtain ⟨op, z, tr, h1, rfl, h3, h4, h5⟩ := coupled_next (hc i) hx
    have hd := h5 t' _ _ (List.getElem?_eq_getElem hlt)
    refine ⟨_, (progW.family.from fun _ => progW.init).done_mem hE hd, ?_⟩
    intro hp
    have hlast : (tr.take (t' + 1)).getLast? = some (tr[t'].1, .panic) := by
      rw [List.getLast?_take]; simp [List.getElem?_eq_getElem hlt, ← hp]
    have hnext : ∃ o', m.nextW op (tr.take (t' + 1)) = .inl o' := by
      rcases Nat.lt_or_ge (t' + 1) tr.length with hlt' | hge
      · exact ⟨_, h4 (t' + 1) _ _ (List.getElem?_eq_getElem hlt')⟩
      · rw [List.take_of_length_le hge]; exact ⟨_, h3⟩
    obtain ⟨o', ho'⟩ := hnext
    cases op with
    | inl op =>
      simp only [Shape.nextW] at ho'
      split at ho'
      · rename_i hn; exact next_done hlast hn
      · simp at ho'
    | inr c =>
      have hin : m.nextW (.inr c) (tr.take t') = .inl tr[t'].1 := h4 t' _ _ (List.getElem?_eq_getElem hlt)
      have hpt := nextW_inl hin
      have hinv : Ev.inv (Nat.pair i t') tr[t'].1 ∈ E := (hist.1 _ _).mpr ⟨.inr _, by simp [Conf.view, hd, Proc.view]; rfl⟩
      have hr := (progW.family.from fun _ => progW.init).done_mem hE hd
      obtain ⟨e, -⟩ := hpt
      rw [show tr[t'].1 = ((tr.take t').length, .inr .clear) from e] at hinv
      have := hunit _ _ _ _ hinv hr
      rw [this] at hp
      simp at hp
  · intro i op r hv
    have hci := hc i
    have key : ∃ tr : TrW V, (clientW m).Script op tr ∧ (clientW m).next op tr = .inr r ∧ ∀ t, mE.pc (Nat.pair i t) = subs tr .idle t := by
      simp only [Conf.view] at hv
      cases hp : mm.pc i with
      | idle => rw [hp] at hv; simp [Proc.view] at hv
      | «at» op s => rw [hp] at hv; simp [Proc.view] at hv
      | ret op' r' =>
        rw [hp] at hv hci
        simp only [Proc.view, Option.some.injEq, Prod.mk.injEq, Sum.inr.injEq] at hv
        obtain ⟨rfl, rfl⟩ := hv
        obtain ⟨tr, h0, h1, h2⟩ := hci
        exact ⟨tr, h0, h1, h2⟩
      | done op' r' =>
        rw [hp] at hv hci
        simp only [Proc.view, Option.some.injEq, Prod.mk.injEq, Sum.inr.injEq] at hv
        obtain ⟨rfl, rfl⟩ := hv
        obtain ⟨tr, h0, h1, h2⟩ := hci
        exact ⟨tr, h0, h1, h2⟩
    obtain ⟨tr, h0, h1, h2⟩ := key
    refine ⟨tr, h1, h0, ?_, ?_⟩
    · intro t o r' ht
      have hd : mE.pc (Nat.pair i t) = .done o r' := by rw [h2, subs, ht]
      exact ⟨(hist.1 _ _).mpr ⟨.inr r', by simp [Conf.view, hd, Proc.view]⟩, (progW.family.from fun _ => progW.init).done_mem hE hd⟩
    · intro t o hi
      by_contra hlt
      obtain ⟨x, hx⟩ := (hist.1 _ _).mp hi
      have hd : mE.pc (Nat.pair i t) = .idle := by
        rw [h2, subs, List.getElem?_eq_none (by omega)]; simp
      simp [Conf.view, hd, Proc.view] at hx
  · intro j x b r hi hr hp
    have hsh := hO x j b r (((hPx x).inv j _).2 hi) (((hPx x).ret j r).2 ⟨hr, _, hi⟩) hp
    unfold MapWords.Shows MapConc.Sees at hsh
    refine MapConc.resOk_mono ?_ ?_ hsh
    · rintro k y ⟨s, ⟨n, n1, rfl⟩, rfl⟩
      obtain ⟨n', a1, a2, -⟩ := hYo x n j r n1
      obtain ⟨n'', b1, b2, -⟩ := hLo n' j r a1
      exact ⟨n'', b1, by rw [b2, a2]⟩
    · rintro k w ⟨s, ⟨n, n', o, r', n1, rfl, n2, n3⟩, hk⟩
      obtain ⟨c, a1, a2, a3⟩ := hYo x n j r n1
      obtain ⟨d, d1, d2⟩ := a3 n' j o r' n3 n2
      obtain ⟨e, b1, b2, b3⟩ := hLo c j r a1
      obtain ⟨q, q1, q2⟩ := b3 d j _ r' d1 d2
      exact ⟨e, q, _, _, b1, by rw [b2, a2, hk], q2, q1⟩
  · intro j hr
    obtain ⟨⟨x, o⟩, ho⟩ := hret j _ hr
    have hr' := ((hPx x).ret j _).2 ⟨hr, _, ho⟩
    obtain ⟨⟨b, hb⟩, j', hj', n1, n2⟩ := MapWords.C118_panics (hEx x) hr'
    have hb' := ((hPx x).inv j _).1 hb
    have hj := ((hPx x).inv j' _).1 hj'
    exact ⟨x, b, j', hb', hj, fun hB => n1 ((hPx x).before _ _ _ _ hj hb' hB), fun hB => n2 ((hPx x).before _ _ _ _ hb' hj hB)⟩

/-! ## The effects -/

/-- The operation of a call. -/
def opOfW (mm : CfW V) (i : Nat) : SO V :=
  match mm.view i with
  | some (op, _) => op
  | none => .inr .clear

/-- The effect of a call of a shard. -/
def liftW (mm : CfW V) (e : Nat × (Nat × BO V) × BRes V) : Nat × Change V × SRes V :=
  ((Nat.unpair e.1).1, effectW (opOfW mm (Nat.unpair e.1).1) e.2.1 e.2.2)

/-- The calls of shards made by the call `i`, in order. -/
def mineW (LE : List (Nat × (Nat × BO V) × BRes V)) (i : Nat) : List (Nat × (Nat × BO V) × BRes V) :=
  LE.filter fun e => (Nat.unpair e.1).1 = i

section
variable {m : Shape} {mm : CfW V} {H : List (Ev (SO V) (SRes V))} {E : List (Ev (Nat × BO V) (BRes V))}
  {LE : List (Nat × (Nat × BO V) × BRes V)} {stE : Nat → Nat → M Bytes V}

theorem BehindW.inv (B : BehindW m mm H E LE stE) {e : Nat × (Nat × BO V) × BRes V} (he : e ∈ LE) :
    Ev.inv (Nat.pair (Nat.unpair e.1).1 (Nat.unpair e.1).2) e.2.1 ∈ E := by
  rw [Nat.pair_unpair]; exact B.lin.invoked e he

theorem BehindW.mem_part (B : BehindW m mm H E LE stE) {e : Nat × (Nat × BO V) × BRes V} (he : e ∈ LE) :
    PartW m (opOfW mm (Nat.unpair e.1).1) (Nat.unpair e.1).2 e.2.1 := by
  obtain ⟨op, z, h1, h2⟩ := B.part _ _ _ (B.inv he)
  rwa [opOfW, h1]

theorem BehindW.times (B : BehindW m mm H E LE stE) (i : Nat) :
    (mineW LE i).map (fun e => (Nat.unpair e.1).2) = List.range (mineW LE i).length := by
  have := range_of_closed ((mineW LE i).map fun e => (Nat.unpair e.1).2) ?_ ?_
  · rwa [List.length_map] at this
  · rw [List.pairwise_map]
    have h1 : LE.Pairwise fun a b => a.1 ≠ b.1 := by
      have := B.lin.once
      rwa [List.Nodup, List.pairwise_map] at this
    have h2 := (h1.and B.lin.order).filter fun e => decide ((Nat.unpair e.1).1 = i)
    refine List.Pairwise.imp_of_mem ?_ h2
    rintro a b ha hb ⟨hne, hB⟩
    replace ha := List.mem_filter.mp ha
    replace hb := List.mem_filter.mp hb
    simp only [decide_eq_true_eq] at ha hb
    by_contra hlt
    rcases Nat.lt_or_ge (Nat.unpair b.1).2 (Nat.unpair a.1).2 with hlt | hge
    · have := B.inside.serial i _ _ a.2.1 hlt (by rw [← ha.2]; exact B.inv ha.1)
      rw [← ha.2, Nat.pair_unpair, ha.2, ← hb.2, Nat.pair_unpair] at this
      exact hB this
    · apply hne
      rw [← Nat.pair_unpair a.1, ← Nat.pair_unpair b.1, ha.2, hb.2, show (Nat.unpair a.1).2 = (Nat.unpair b.1).2 by omega]
  · intro t ht t' hlt
    simp only [List.mem_map, mineW, List.mem_filter, decide_eq_true_eq] at ht ⊢
    obtain ⟨e, ⟨h1, h2⟩, rfl⟩ := ht
    obtain ⟨r, hr, hp⟩ := B.alive i _ t' e.2.1 (by rw [← h2]; exact B.inv h1) hlt
    obtain ⟨o, ho⟩ := B.lin.returned _ _ hr hp
    exact ⟨_, ⟨ho, by simp⟩, by simp⟩

theorem BehindW.nth (B : BehindW m mm H E LE stE) {i t : Nat} {e : Nat × (Nat × BO V) × BRes V} (he : (mineW LE i)[t]? = some e) :
    e ∈ LE ∧ e.1 = Nat.pair i t := by
  have hm := List.mem_of_getElem? he
  simp only [mineW, List.mem_filter, decide_eq_true_eq] at hm
  refine ⟨hm.1, ?_⟩
  have h1 := congrArg (fun l => l[t]?) (B.times i)
  have h2 := (List.getElem?_eq_some_iff.mp he).1
  simp only [List.getElem?_map, he, Option.map_some, List.getElem?_range h2, Option.some.injEq] at h1
  rw [← Nat.pair_unpair e.1, hm.2, h1]

theorem BehindW.nth_part (B : BehindW m mm H E LE stE) {i t : Nat} {e : Nat × (Nat × BO V) × BRes V} (he : (mineW LE i)[t]? = some e) :
    PartW m (opOfW mm i) t e.2.1 := by
  obtain ⟨h1, h2⟩ := B.nth he
  have := B.mem_part h1
  simpa [h2] using this

theorem filter_liftW (i : Nat) : (LE.map (liftW mm)).filter (fun x => x.1 = i) = (mineW LE i).map (liftW mm) := by
  rw [List.filter_map, mineW]
  rfl

/-- The first calls of shards of a call. -/
theorem started_of {m : Shape} {op : SOp V} {l : List ((Nat × BOp V) × BRes V)} (hp : ∀ t x, l[t]? = some x → Part m op t x.1) :
    Started op (l.map fun x => (effect op x.1.2 x.2).1) := by
  have keyed : (∀ t o, Part m op t o → t = 0) → (∀ o r, (effect op o r).1 = op) → (l.map fun x => (effect op x.1.2 x.2).1) <+: [op] := by
    intro h0 h1
    rw [List.prefix_iff_getElem?]
    intro t ht
    rw [List.length_map] at ht
    have := h0 _ _ (hp _ _ (List.getElem?_eq_getElem ht))
    subst this
    simp [h1]
  cases op with
  | mstore data =>
    simp only [Started]
    rw [List.prefix_iff_getElem?]
    intro t ht
    rw [List.length_map] at ht
    obtain ⟨k, v, a2, a3⟩ := hp _ _ (List.getElem?_eq_getElem ht)
    simp [a2, a3, effect]
  | range f =>
    intro x hx
    simp only [List.mem_map] at hx
    obtain ⟨e, he, rfl⟩ := hx
    rfl
  | _ => exact keyed (fun t o ⟨_, _, _, _, h⟩ => h) (fun _ _ => rfl)

theorem BehindW.started (B : BehindW m mm H E LE stE) {i : Nat} {o : SO V} (ho : opOfW mm i = o) :
    StartedW m o (((mineW LE i).map (liftW mm)).map fun x => x.2.1) := by
  have hl : ∀ t e, (mineW LE i)[t]? = some e → ((liftW mm e).2 = effectW o e.2.1 e.2.2) ∧ PartW m o t e.2.1 := by
    intro t e he
    refine ⟨?_, ho ▸ B.nth_part he⟩
    simp [liftW, (B.nth he).2, ho]
  cases o with
  | inl op =>
    refine ⟨((mineW LE i).map fun e => (plain e.2.1, e.2.2)).map fun x => (effect op x.1.2 x.2).1, ?_, started_of (m := m) ?_⟩
    · apply List.ext_getElem?
      intro t
      simp only [List.getElem?_map]
      cases he : (mineW LE i)[t]? with
      | none => rfl
      | some e =>
        obtain ⟨a1, b, a2, -⟩ := hl t e he
        obtain ⟨j, ⟨x, b'⟩, r⟩ := e
        simp only at a2
        subst a2
        simp only [Option.map_some, a1, effectW, plain]
    · intro t x hx
      rw [List.getElem?_map, Option.map_eq_some_iff] at hx
      obtain ⟨e, he, rfl⟩ := hx
      obtain ⟨-, b, a2, a3⟩ := hl t e he
      obtain ⟨j, ⟨x, b'⟩, r⟩ := e
      simp only at a2
      subst a2
      exact a3
  | inr c =>
    simp only [StartedW]
    rw [List.prefix_iff_getElem?]
    intro t ht
    rw [List.length_map, List.length_map] at ht
    obtain ⟨a1, a2, a3⟩ := hl t _ (List.getElem?_eq_getElem ht)
    simp only [List.getElem_map, a1, effectW, List.getElem?_map, List.getElem?_range a3, Option.map_some]
    rw [a2]

/-- The calls of shards of a call that has returned or panicked: `tr₀`, and possibly one that panicked. -/
theorem BehindW.returned (B : BehindW m mm H E LE stE) {i : Nat} {o : SO V} {r : SRes V} (hv : mm.view i = some (o, .inr r)) :
    ∃ tr tr₀ : TrW V, m.nextW o tr = .inr r ∧ (∀ t o' r', tr[t]? = some (o', r') → m.nextW o (tr.take t) = .inl o') ∧
      (tr = tr₀ ∨ ∃ so, tr = tr₀ ++ [(so, .panic)] ∧ (∃ op, o = .inl op) ∧ Ev.ret (Nat.pair i tr₀.length) .panic ∈ E) ∧ mineW LE i = (tr₀.mapIdx fun t x => (Nat.pair i t, x.1, x.2)) ∧
      ∀ t o' r', tr₀[t]? = some (o', r') → Ev.ret (Nat.pair i t) r' ∈ E ∧ r' ≠ .panic := by
  obtain ⟨tr, h1, h2, h3, h4⟩ := B.ended i o r hv
  -- at most the last one panicked
  have key : ∃ tr₀ : TrW V, (tr = tr₀ ∨ ∃ so, tr = tr₀ ++ [(so, .panic)] ∧ (∃ op, o = .inl op) ∧ Ev.ret (Nat.pair i tr₀.length) .panic ∈ E) ∧ ∀ x ∈ tr₀, x.2 ≠ .panic := by
    rcases List.eq_nil_or_concat tr with rfl | ⟨tr₀, ⟨so, r'⟩, rfl⟩
    · exact ⟨[], .inl rfl, by simp⟩
    · rw [List.concat_eq_append] at h1 h2 h3 h4 ⊢
      have h0 : ∀ x ∈ tr₀, x.2 ≠ .panic := by
        intro x hx hp
        obtain ⟨t, ht⟩ := List.getElem?_of_mem hx
        have hlt := (List.getElem?_eq_some_iff.mp ht).1
        have hlast := (h3 tr₀.length so r' (by simp)).1
        obtain ⟨r'', a1, a2⟩ := B.alive i _ t _ hlast hlt
        have ht' : (tr₀ ++ [(so, r')])[t]? = some x := by rw [List.getElem?_append_left hlt, ht]
        obtain ⟨a3, a4⟩ := h3 t x.1 x.2 ht'
        rw [hp] at a4
        obtain ⟨_, _, _, b1, -⟩ := B.torn _ a4
        obtain ⟨q, hq⟩ := B.lin.returned _ _ a1 a2
        exact B.lin.good _ hq .panic rfl a4
      by_cases hr : r' = .panic
      · subst hr
        refine ⟨tr₀, .inr ⟨so, rfl, ?_⟩, h0⟩
        obtain ⟨a3, a4⟩ := h3 tr₀.length so .panic (by simp)
        obtain ⟨x, b, _, b1, -⟩ := B.torn _ a4
        have e := B.once _ _ _ a3 b1
        obtain ⟨o', z, c1, c2⟩ := B.part _ _ _ a3
        rw [hv] at c1
        simp only [Option.some.injEq, Prod.mk.injEq] at c1
        rw [← c1.1] at c2
        cases o with
        | inl op => exact ⟨⟨op, rfl⟩, a4⟩
        | inr c => rw [e] at c2; simp [PartW] at c2
      · refine ⟨tr₀ ++ [(so, r')], .inl rfl, ?_⟩
        intro x hx
        rw [List.mem_append, List.mem_singleton] at hx
        rcases hx with hx | rfl
        · exact h0 x hx
        · exact hr
  obtain ⟨tr₀, hcase, hnp⟩ := key
  have hsub : ∀ (t : Nat) (x : (Nat × BO V) × BRes V), tr₀[t]? = some x → tr[t]? = some x := by
    intro t x ht
    rcases hcase with rfl | ⟨so, rfl, -⟩
    · exact ht
    · rw [List.getElem?_append_left (List.getElem?_eq_some_iff.mp ht).1, ht]
  have hcall : ∀ (t : Nat) (o' : Nat × BO V) (r' : BRes V), tr₀[t]? = some (o', r') → Ev.inv (Nat.pair i t) o' ∈ E ∧ Ev.ret (Nat.pair i t) r' ∈ E ∧ r' ≠ .panic :=
    fun t o' r' ht => ⟨(h3 t o' r' (hsub t _ ht)).1, (h3 t o' r' (hsub t _ ht)).2, hnp _ (List.mem_of_getElem? ht)⟩
  refine ⟨tr, tr₀, h1, h2, hcase, ?_, fun t o' r' ht => (hcall t o' r' ht).2⟩
  -- the `t`-th call
  have hnth : ∀ t e o r', (mineW LE i)[t]? = some e → tr₀[t]? = some (o, r') → e = (Nat.pair i t, o, r') := by
    intro t e o r' he ht
    obtain ⟨e1, e2⟩ := B.nth he
    obtain ⟨t1, t2, t3⟩ := hcall t o r' ht
    obtain ⟨o', ho'⟩ := B.lin.returned _ _ t2 t3
    have hoe : o' = o := B.once _ _ _ (B.lin.invoked _ ho') t1
    subst hoe
    exact List.inj_on_of_nodup_map B.lin.once e1 ho' (by rw [e2])
  have hlen : (mineW LE i).length = tr₀.length := by
    apply Nat.le_antisymm
    · by_contra hlt
      have hlt : tr₀.length < (mineW LE i).length := by omega
      obtain ⟨e1, e2⟩ := B.nth (List.getElem?_eq_getElem hlt)
      have := B.lin.invoked _ e1
      rw [e2] at this
      have hl := h4 _ _ this
      rcases hcase with rfl | ⟨so, rfl, -⟩
      · exact absurd hl (by simp)
      · have hr := (h3 tr₀.length so .panic (by simp)).2
        rw [← e2] at hr
        exact B.lin.good _ e1 .panic rfl hr
    · by_contra hlt
      have hlt : (mineW LE i).length < tr₀.length := by omega
      obtain ⟨t1, t2, t3⟩ := hcall _ _ _ (List.getElem?_eq_getElem hlt)
      obtain ⟨o', ho'⟩ := B.lin.returned _ _ t2 t3
      have hm : (mineW LE i).length ∈ (mineW LE i).map fun e => (Nat.unpair e.1).2 :=
        List.mem_map.mpr ⟨_, List.mem_filter.mpr ⟨ho', by simp⟩, by simp⟩
      rw [B.times] at hm
      simp at hm
  apply List.ext_getElem?
  intro t
  rw [List.getElem?_mapIdx]
  rcases Nat.lt_or_ge t tr₀.length with ht | ht
  · rw [List.getElem?_eq_getElem ht, List.getElem?_eq_getElem (hlen ▸ ht)]
    simp only [Option.map_some, Option.some.injEq]
    exact hnth t _ _ _ (List.getElem?_eq_getElem (hlen ▸ ht)) (List.getElem?_eq_getElem ht)
  · rw [List.getElem?_eq_none ht, List.getElem?_eq_none (hlen ▸ ht)]
    rfl

theorem BehindW.mem_of_tr (B : BehindW m mm H E LE stE) {i : Nat} {tr : TrW V} (h : mineW LE i = tr.mapIdx fun t x => (Nat.pair i t, x.1, x.2))
    {t : Nat} {o : Nat × BO V} {r : BRes V} (ht : tr[t]? = some (o, r)) : (Nat.pair i t, o, r) ∈ LE := by
  have : (mineW LE i)[t]? = some (Nat.pair i t, o, r) := by rw [h, List.getElem?_mapIdx, ht]; rfl
  exact (B.nth this).1

theorem BehindW.during (B : BehindW m mm H E LE stE) {i t n : Nat} {o : Nat × BO V} (hi : Ev.inv (Nat.pair i t) o ∈ E)
    (h : During E LE (Nat.pair i t) n) : During H (LE.map (liftW mm)) i n := by
  refine ⟨by simpa using h.1, ?_, ?_⟩
  · intro k x hx hk hB
    simp only [List.getElem?_map, Option.map_eq_some_iff] at hx
    obtain ⟨e, he, rfl⟩ := hx
    refine h.2.1 k e he hk ?_
    have := B.inside.before _ (Nat.unpair e.1).1 _ _ _ _ hB hi (B.inv (List.mem_of_getElem? he))
    rwa [Nat.pair_unpair] at this
  · intro k x hx hk hB
    simp only [List.getElem?_map, Option.map_eq_some_iff] at hx
    obtain ⟨e, he, rfl⟩ := hx
    refine h.2.2 k e he hk ?_
    have := B.inside.before (Nat.unpair e.1).1 _ _ _ _ _ hB (B.inv (List.mem_of_getElem? he)) hi
    rwa [Nat.pair_unpair] at this

/-- A key is only in its own shard. -/
theorem BehindW.home (B : BehindW m mm H E LE stE) : ∀ n, n ≤ LE.length → ∀ x k, stE n x k ≠ none → m.index k = x := by
  intro n
  induction n with
  | zero => intro _ x k; rw [B.lin.init]; simp [famSpec, MapConc.mapSpecC, Spec.withX, MapConc.mapSpec]
  | succ n ih =>
    intro hn x k
    have hlt : n < LE.length := hn
    obtain ⟨⟨j, ⟨y, o⟩, r⟩, he⟩ : ∃ e, LE[n]? = some e := ⟨_, List.getElem?_eq_getElem hlt⟩
    obtain ⟨h1, h2⟩ := B.lin.legal n _ _ _ he
    have hp := B.mem_part (List.mem_of_getElem? he)
    by_cases hx : x = y
    · subst hx
      intro hne
      by_contra hk
      have hold : stE n x k = none := by
        by_contra h; exact hk (ih (by omega) x k h)
      cases o with
      | inr c =>
        have h1 : r = .unit ∧ stE (n + 1) x = fun _ => none := h1
        rw [h1.2] at hne
        exact hne rfl
      | inl b =>
        have h1 : MapConc.Does (stE n x) b r (stE (n + 1) x) := h1
        generalize opOfW mm (Nat.unpair j).1 = q at hp
        cases q with
        | inr c => obtain ⟨a, -⟩ := hp; simp at a
        | inl op =>
          obtain ⟨b', e, hp⟩ := hp
          simp only [Sum.inl.injEq] at e
          subst e
          rcases part_puts hp h1 with ⟨k', y, a1, a2⟩ | a
          · have : k ≠ k' := by rintro rfl; exact hk a1
            rw [a2] at hne
            simp [MapConc.M.put, this, hold] at hne
          · rw [a] at hne; exact hne hold
    · rw [h2 x hx]
      exact ih (by omega) x k

end

end Verif.XSync.SharedConc

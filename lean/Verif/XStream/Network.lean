import Verif.XStream.Fork
import Verif.XStream.Stages2
import Verif.XMapReduce.CtxComp
/-! # Networks of stream operations -/
namespace Verif.XStream
open Verif.Go Verif.Conc.Net

variable {α K : Type}

/-! ## From component specifications to the specification of the operations -/

theorem Good.imp {lim : Nat} {A L : Type} {C : Comp A L} {R R' : (Nat → List A) → (Nat → List A) → List L → Prop} (h : Good lim C R)
    (hi : ∀ ins outs log, (∀ p < C.nin, (ins p).length < lim) → R ins outs log → R' ins outs log) : Good lim C R' :=
  ⟨h.safe, fun s hh hr hs hd => ⟨(h.fin s hh hr hs hd).1, (h.fin s hh hr hs hd).2.1, hi _ _ _ hs (h.fin s hh hr hs hd).2.2⟩, h.live, h.accept, h.weight⟩

/-- The operation sends at most `b` values for one element. -/
def Op.Emits (b : Nat) : Op α K → Prop
  | .walk f _ => ∀ v, (f v).sends.length ≤ b
  | .flatMap fn _ => ∀ v, (flatMapF fn v).sends.length ≤ b
  | _ => True

theorem loadOptions_pos (opts : List Opt) : 0 < loadOptions opts := by
  unfold loadOptions
  simp only
  split <;> omega

theorem filterF_eq (fn : Val α → Option Bool) : filterF fn = Filter.body fn := by
  funext v
  unfold filterF Filter.body
  split <;> rename_i h <;> simp [h]

theorem mapF_eq (fn : Val α → Option (Val α)) : mapF fn = Map.body fn := by
  funext v
  unfold mapF Map.body
  split <;> rename_i h <;> simp [h]

theorem flatLoop_eq (fn : Val α → Option (Val α)) (l : List (Val α)) :
    flatLoop fn l = ⟨((l.map fn).takeWhile Option.isSome).filterMap id, l.any fun x => (fn x).isNone⟩ := by
  induction l with
  | nil => rfl
  | cons x l ih =>
    unfold flatLoop
    split <;> rename_i h <;> simp [h, ih]

theorem flatMapF_eq (fn : Val α → Option (Val α)) : flatMapF fn = FlatMap.body fn := by
  funext v
  cases v <;> simp [flatMapF, FlatMap.body, flatLoop_eq, mapF_eq]

theorem op_good [DecidableEq K] {o : Op α K} {C : Comp (Val α) (Ev α K)} (hb : o.build = some [C]) (hv : o.Valid) : Good lim C (lift o.Does) := by
  have hpos : ∀ opts, 0 < (loadOptions opts).toNat := fun opts => by have := loadOptions_pos opts; omega
  cases o with
  | buffer n => simp only [Op.build, Option.some.injEq, List.cons.injEq, and_true] at hb; subst hb; exact (buffer_fine n).1
  | peek => simp only [Op.build, Option.some.injEq, List.cons.injEq, and_true] at hb; subst hb; exact peek_fine.1
  | distinct f => simp only [Op.build, Option.some.injEq, List.cons.injEq, and_true] at hb; subst hb; exact (distinct_fine f).1
  | split n =>
    by_cases h : n < 1
    · simp [Op.build, h] at hb
    · rw [Op.build, if_neg h] at hb
      simp only [Option.some.injEq, List.cons.injEq, and_true] at hb; subst hb; exact (split_fine (by omega)).1
  | splitSteam n =>
    by_cases h : n < 1
    · simp [Op.build, h] at hb
    · rw [Op.build, if_neg h] at hb
      simp only [Option.some.injEq, List.cons.injEq, and_true] at hb; subst hb; exact (splitSteam_fine (by omega)).1
  | skip n =>
    by_cases h : n < 0
    · simp [Op.build, h] at hb
    · by_cases h0 : n = 0
      · subst h0; simp [Op.build] at hb
      · rw [Op.build, if_neg h, if_neg h0] at hb
        simp only [Option.some.injEq, List.cons.injEq, and_true] at hb; subst hb; exact (skip_fine (by omega)).1
  | limit n =>
    by_cases h0 : n = 0
    · subst h0
      simp only [Op.build, if_true, Option.some.injEq, List.cons.injEq, and_true] at hb; subst hb
      exact Good.imp empty_fine.1 fun ins outs log _ h => by simpa [lift, Op.Does] using h
    · by_cases h : n < 0
      · simp [Op.build, h0, h] at hb
      · rw [Op.build, if_neg h0, if_neg h] at hb
        simp only [Option.some.injEq, List.cons.injEq, and_true] at hb; subst hb; exact (limit_fine (by omega) hv).1
  | tail n =>
    by_cases h0 : n = 0
    · subst h0
      simp only [Op.build, Int.le_refl, if_true, Option.some.injEq, List.cons.injEq, and_true] at hb; subst hb
      exact Good.imp empty_fine.1 fun ins outs log _ h => by simpa [lift, Op.Does, lastN] using h
    · by_cases h : n ≤ 0
      · simp [Op.build, h0, h] at hb
      · rw [Op.build, if_neg h] at hb
        simp only [Option.some.injEq, List.cons.injEq, and_true] at hb; subst hb; exact (tail_fine (by omega)).1
  | merge => simp only [Op.build, Option.some.injEq, List.cons.injEq, and_true] at hb; subst hb; exact merge_fine.1
  | reverse =>
    simp only [Op.build, Option.some.injEq, List.cons.injEq, and_true] at hb; subst hb
    refine Good.imp (collect_fine _ _ ?_).1 ?_
    · intro l; rw [swapLoop_reverse]; simp
    · rintro ins outs log _ ⟨h1, h2⟩; exact ⟨by rw [h1, swapLoop_reverse], h2⟩
  | sort sortSlice less =>
    simp only [Op.build, Option.some.injEq, List.cons.injEq, and_true] at hb; subst hb
    refine Good.imp (collect_fine _ _ fun l => Nat.le_of_eq (hv _ l).1.length_eq).1 ?_
    rintro ins outs log _ ⟨h1, h2⟩
    have := hv (fun a b => less a b) (ins 0)
    rw [← h1] at this
    exact ⟨this.1, this.2, h2⟩
  | group f order =>
    simp only [Op.build, Option.some.injEq, List.cons.injEq, and_true] at hb; subst hb
    refine Good.imp (collect_fine _ _ ?_).1 ?_
    · intro l
      have h1 := (hv (groupLoop f [] l)).length_eq
      have h2 := groupLoop_length f l []
      simp at h2 ⊢; omega
    · rintro ins outs log _ ⟨h1, h2⟩
      refine ⟨⟨_, ?_, h1⟩, h2⟩
      have := groups_is (groupLoop_groups f (ins 0) [] [] (groups_nil f))
      exact isGrouping_perm this (hv _)
  | walk f opts => simp only [Op.build, Option.some.injEq, List.cons.injEq, and_true] at hb; subst hb; exact walk_good (hpos opts)
  | filter fn opts =>
    simp only [Op.build, Option.some.injEq, List.cons.injEq, and_true] at hb; subst hb
    rw [filterF_eq]
    exact walk_good (hpos opts)
  | map fn opts =>
    simp only [Op.build, Option.some.injEq, List.cons.injEq, and_true] at hb; subst hb
    rw [mapF_eq]
    exact walk_good (hpos opts)
  | flatMap fn opts =>
    simp only [Op.build, Option.some.injEq, List.cons.injEq, and_true] at hb; subst hb
    rw [flatMapF_eq]
    exact walk_good (hpos opts)

/-- The number of values an operation sends. -/
theorem op_grows [DecidableEq K] {o : Op α K} {C : Comp (Val α) (Ev α K)} (hb : o.build = some [C]) (hv : o.Valid) {b : Nat} (h1 : 1 ≤ b) (he : o.Emits b) :
    ∀ s h, CReach C s h → Small lim C h → ∀ q < C.nout, (h.outs q).length ≤ b * max 1 (if C.nin = 0 then 0 else (h.ins 0).length) := by
  have hpos : ∀ opts, 0 < (loadOptions opts).toNat := fun opts => by have := loadOptions_pos opts; omega
  have most : ∀ {R}, Fine lim C R atMost → ∀ s h, CReach C s h → Small lim C h → ∀ q < C.nout,
      (h.outs q).length ≤ b * max 1 (if C.nin = 0 then 0 else (h.ins 0).length) := by
    intro R hf s h hr hs q hq
    have := hf.2.2 s h hr hs q hq
    refine Nat.le_trans this ?_
    exact Nat.le_mul_of_pos_left _ h1
  have mul : ∀ {R b'}, Fine lim C R (fun n => b' * n) → b' ≤ b → ∀ s h, CReach C s h → Small lim C h → ∀ q < C.nout,
      (h.outs q).length ≤ b * max 1 (if C.nin = 0 then 0 else (h.ins 0).length) := by
    intro R b' hf hle s h hr hs q hq
    have := hf.2.2 s h hr hs q hq
    refine Nat.le_trans this ?_
    exact Nat.mul_le_mul hle (Nat.le_max_right _ _)
  cases o with
  | buffer n => simp only [Op.build, Option.some.injEq, List.cons.injEq, and_true] at hb; subst hb; exact most (buffer_fine n)
  | peek => simp only [Op.build, Option.some.injEq, List.cons.injEq, and_true] at hb; subst hb; exact most peek_fine
  | distinct f => simp only [Op.build, Option.some.injEq, List.cons.injEq, and_true] at hb; subst hb; exact most (distinct_fine f)
  | split n =>
    by_cases h : n < 1
    · simp [Op.build, h] at hb
    · rw [Op.build, if_neg h] at hb
      simp only [Option.some.injEq, List.cons.injEq, and_true] at hb; subst hb; exact most (split_fine (by omega))
  | splitSteam n =>
    by_cases h : n < 1
    · simp [Op.build, h] at hb
    · rw [Op.build, if_neg h] at hb
      simp only [Option.some.injEq, List.cons.injEq, and_true] at hb; subst hb; exact most (splitSteam_fine (by omega))
  | skip n =>
    by_cases h : n < 0
    · simp [Op.build, h] at hb
    · by_cases h0 : n = 0
      · subst h0; simp [Op.build] at hb
      · rw [Op.build, if_neg h, if_neg h0] at hb
        simp only [Option.some.injEq, List.cons.injEq, and_true] at hb; subst hb; exact most (skip_fine (by omega))
  | limit n =>
    by_cases h0 : n = 0
    · subst h0
      simp only [Op.build, if_true, Option.some.injEq, List.cons.injEq, and_true] at hb; subst hb; exact most empty_fine
    · by_cases h : n < 0
      · simp [Op.build, h0, h] at hb
      · rw [Op.build, if_neg h0, if_neg h] at hb
        simp only [Option.some.injEq, List.cons.injEq, and_true] at hb; subst hb; exact most (limit_fine (by omega) hv)
  | tail n =>
    by_cases h0 : n = 0
    · subst h0
      simp only [Op.build, Int.le_refl, if_true, Option.some.injEq, List.cons.injEq, and_true] at hb; subst hb; exact most empty_fine
    · by_cases h : n ≤ 0
      · simp [Op.build, h0, h] at hb
      · rw [Op.build, if_neg h] at hb
        simp only [Option.some.injEq, List.cons.injEq, and_true] at hb; subst hb; exact most (tail_fine (by omega))
  | merge => simp only [Op.build, Option.some.injEq, List.cons.injEq, and_true] at hb; subst hb; exact most merge_fine
  | reverse =>
    simp only [Op.build, Option.some.injEq, List.cons.injEq, and_true] at hb; subst hb
    exact most (collect_fine _ _ fun l => by rw [swapLoop_reverse]; simp)
  | sort sortSlice less =>
    simp only [Op.build, Option.some.injEq, List.cons.injEq, and_true] at hb; subst hb
    exact most (collect_fine _ _ fun l => Nat.le_of_eq (hv _ l).1.length_eq)
  | group f order =>
    simp only [Op.build, Option.some.injEq, List.cons.injEq, and_true] at hb; subst hb
    refine most (collect_fine _ _ fun l => ?_)
    have h1 := (hv (groupLoop f [] l)).length_eq
    have h2 := groupLoop_length f l []
    simp at h2 ⊢; omega
  | walk f opts => simp only [Op.build, Option.some.injEq, List.cons.injEq, and_true] at hb; subst hb; exact mul (walk_fine (hpos opts) he) (Nat.le_refl _)
  | filter fn opts =>
    simp only [Op.build, Option.some.injEq, List.cons.injEq, and_true] at hb; subst hb
    exact mul (walk_fine (b := 1) (hpos opts) fun v => by unfold filterF; split <;> simp) h1
  | map fn opts =>
    simp only [Op.build, Option.some.injEq, List.cons.injEq, and_true] at hb; subst hb
    exact mul (walk_fine (b := 1) (hpos opts) fun v => by unfold mapF; split <;> simp) h1
  | flatMap fn opts => simp only [Op.build, Option.some.injEq, List.cons.injEq, and_true] at hb; subst hb; exact mul (walk_fine (hpos opts) he) (Nat.le_refl _)

theorem term_good [DecidableEq K] (t : Term α K) : Good lim (t.comp : Comp (Val α) (Ev α K)) (fun ins _ log => t.Does (ins 0) log) := by
  cases t with
  | foreach => exact foreach_fine.1
  | done => exact done_fine.1
  | foreachOrdered => exact ordered_fine.1
  | count =>
    refine Good.imp (fold_fine (fun c _ => wrap64 (c + 1)) 0 (fun c => .int c) (fun xs c => xs.length < lim ∧ c = (xs.length : Int)) ⟨by simp [lim], rfl⟩ ?_).1 ?_
    · rintro xs c v hl ⟨h1, rfl⟩
      refine ⟨by simpa using hl, ?_⟩
      have : (xs.length : Int) + 1 < 2 ^ 63 := by unfold lim at hl; omega
      rw [wrap64_of_isInt64 ⟨by omega, by omega⟩]
      simp
    · rintro ins outs log hs ⟨acc, ⟨_, rfl⟩, h2⟩
      exact h2
  | anyMach f =>
    refine Good.imp (mach_fine true f).1 ?_
    intro ins outs log _ h
    simpa [lift, Term.Does] using h
  | allMach f =>
    refine Good.imp (mach_fine false f).1 ?_
    intro ins outs log _ h
    have e1 : (fun x => f x == false) = fun x => !f x := by funext x; cases f x <;> rfl
    have e2 : ((ins 0).any (fun x => !f x) == false) = (ins 0).all f := by
      rw [List.all_eq_not_any_not]; cases (ins 0).any (fun x => !f x) <;> rfl
    simp only [lift, e1, e2] at h
    exact h
  | findFirst => exact findFirst_fine.1
  | findLast =>
    refine Good.imp (fold_fine (fun _ v => (v, false)) (Val.nil, true) (fun r => if r.2 then .noElement else .elem r.1)
      (fun xs r => match xs.getLast? with | some v => r = (v, false) | none => r.2 = true) (by simp) ?_).1 ?_
    · intro xs acc v _ _; simp
    · rintro ins outs log hs ⟨acc, h1, h2⟩
      change log = _
      rw [h2]
      cases h : (ins 0).getLast? with
      | none => rw [h] at h1; simp only at h1 ⊢; rw [h1]; rfl
      | some v => rw [h] at h1; simp only at h1 ⊢; rw [h1]; rfl
  | groupBy f =>
    refine Good.imp (fold_fine _ _ _ (fun xs g => Groups f xs g) (groups_nil f) ?_).1 ?_
    · intro xs g v _ h; exact groups_snoc f h v
    · rintro ins outs log hs ⟨g, h1, h2⟩; exact ⟨g, groups_is h1, h2⟩

theorem source_good (s : Source α) : Good lim (s.comp : Comp (Val α) (Ev α K)) (fun _ outs log => outs 0 = s.items ∧ log = []) := by
  cases s <;> exact (source_fine _ _).1

theorem node_good [DecidableEq K] {nd : Node α K} {C : Comp (Val α) (Ev α K)} (hb : nd.Builds C) (hv : nd.Valid) : Good lim C nd.Does := by
  cases nd with
  | source s => subst hb; exact source_good s
  | op o => exact op_good hb hv
  | concat n => subst hb; exact concat_good n
  | copy channels =>
    subst hb
    refine Good.imp (copy_fine _).1 ?_
    rintro ins outs log _ ⟨h1, h2⟩
    exact ⟨fun q hq => h1 q (by simpa using hq), h2⟩
  | mapStream items f opts =>
    subst hb
    have hv : 1 ≤ XMapReduce.loadOption opts := hv
    refine Good.imp (XMapReduce.map_good (by omega)) ?_
    rintro ins outs log _ ⟨h1, h2, h3⟩
    exact ⟨h1, fun h => h2 (by omega), h3⟩
  | mapStreamCtx items f opts =>
    subst hb
    have hv : 1 ≤ XMapReduce.loadOption opts := hv
    refine Good.imp (XMapReduce.mapCtx_good (by omega)) ?_
    rintro ins outs log _ ⟨h1, h2, h3⟩
    exact ⟨h1, fun h => h2 (by omega), h3⟩
  | term t => subst hb; exact term_good t

/-! ## Programs -/

/-- A program: a network in which every channel has one sender and one receiver, and whose components run the nodes. -/
structure IsProgram [DecidableEq K] (N : Net (Val α) (Ev α K)) (node : Nat → Node α K) : Prop where
  wf : N.WF
  built : ∀ i < N.n, (node i).Builds (N.comp i)
  valid : ∀ i < N.n, (node i).Valid

/-- No channel ever carries `2 ^ 63` values or more. -/
def FewValues (N : Net (Val α) (Ev α K)) : Prop := ∀ m, NReach N m → ∀ i < N.n, ∀ p < (N.comp i).nin, ((m.hist i).ins p).length < 2 ^ 63

section
variable [DecidableEq K] {N : Net (Val α) (Ev α K)} {node : Nat → Node α K}

theorem IsProgram.good (hp : IsProgram N node) : ∀ i < N.n, Good lim (N.comp i) (node i).Does := fun i hi => node_good (hp.built i hi) (hp.valid i hi)

theorem IsProgram.inv (hp : IsProgram N node) (hf : FewValues N) {m : NState N} (h : NReach N m) : NInv m :=
  Verif.Conc.Net.inv hp.wf hf hp.good h

theorem closed_step (hp : IsProgram N node) (hf : FewValues N) {m m' : NState N} (h : NReach N m) (hs : NStep m m') {i q : Nat} (hi : i < N.n)
    (hq : q < (N.comp i).nout) (hc : m.closed i q = true) : m'.closed i q = true ∧ (m'.hist i).outs q = (m.hist i).outs q := by
  have hinv := hp.inv hf h
  have hinv' := hp.inv hf (.step h hs)
  have legal : ∀ l s', (N.comp i).step (m.st i) l s' → Legal (N.comp i) (m.hist i) l :=
    fun l s' hst => (hp.good i hi).safe _ _ l s' (hinv.reach i hi) (hf m h i hi) hst
  have hcl := hinv.cl i hi q hq
  have hcl' := hinv'.cl i hi q hq
  rw [hc] at hcl
  have move : ∀ (m₀ : NState N) (j : Nat) (l : Lbl (Val α) (Ev α K)) (s' : (N.comp j).σ), (m₀.hist i).outs q = (m.hist i).outs q →
      (m₀.hist i).closed q = true → (j = i → ∀ v, l ≠ .send q v) →
      ((m₀.move j l s').hist i).outs q = (m.hist i).outs q ∧ ((m₀.move j l s').hist i).closed q = true := by
    intro m₀ j l s' e1 e2 hl
    by_cases e : i = j
    · subst e
      simp only [NState.move, upd_self]
      have hl := hl rfl
      cases l with
      | send q' v =>
        have : q ≠ q' := by rintro rfl; exact hl v rfl
        simp only [Hist.add, upd_of_ne _ _ this]; exact ⟨e1, e2⟩
      | close q' =>
        refine ⟨e1, ?_⟩
        by_cases e3 : q = q'
        · subst e3; simp [Hist.add]
        · simp only [Hist.add, upd_of_ne _ _ e3]; exact e2
      | _ => exact ⟨e1, e2⟩
    · simp only [NState.move, upd_of_ne _ _ e]; exact ⟨e1, e2⟩
  have fin : ∀ m₀ : NState N, (m₀.hist i).outs q = (m.hist i).outs q ∧ (m₀.hist i).closed q = true → m'.hist i = m₀.hist i →
      m'.closed i q = true ∧ (m'.hist i).outs q = (m.hist i).outs q := by
    rintro m₀ ⟨e1, e2⟩ e3
    rw [hcl', e3]; exact ⟨e2, e1⟩
  have nosend : ∀ j q' v s', (N.comp j).step (m.st j) (.send q' v) s' → j = i → ∀ v', (Lbl.send q' v : Lbl (Val α) (Ev α K)) ≠ .send q v' := by
    rintro j q' v s' hst rfl v' e
    simp only [Lbl.send.injEq] at e
    obtain ⟨rfl, -⟩ := e
    have := (legal _ _ hst).2
    rw [← hcl] at this; simp at this
  cases hs with
  | log j e s' _ hj hst => exact fin _ (move m j _ s' rfl hcl.symm (by simp)) rfl
  | tau j s' _ hj hst => exact fin _ (move m j _ s' rfl hcl.symm (by simp)) rfl
  | send j q' v s' _ hj hst _ _ => exact fin (m.move j (.send q' v) s') (move m j _ s' rfl hcl.symm (nosend j q' v s' hst)) rfl
  | meet j q' v s' s'' _ hj hst _ _ _ _ hst' =>
    have h1 := move m j _ s' rfl hcl.symm (nosend j q' v s' hst)
    exact fin _ (move _ _ (.recv _ v) s'' h1.1 h1.2 (by simp)) rfl
  | sendPanic j q' v s' _ hj hst _ => exact fin m ⟨rfl, hcl.symm⟩ rfl
  | close j q' s' _ hj hst _ => exact fin (m.move j (.close q') s') (move m j _ s' rfl hcl.symm (by simp)) rfl
  | closePanic j q' s' _ hj hst _ => exact fin m ⟨rfl, hcl.symm⟩ rfl
  | recv j p v vs s' _ hj hst _ => exact fin (m.move j (.recv p v) s') (move m j _ s' rfl hcl.symm (by simp)) rfl
  | eof j p s' _ hj hst _ _ => exact fin (m.move j (.eof p) s') (move m j _ s' rfl hcl.symm (by simp)) rfl

/-- A closed channel stays closed and nothing is sent on it any more. -/
theorem closed_stable (hp : IsProgram N node) (hf : FewValues N) {m m' : NState N} (h : NReach N m) (hs : Relation.ReflTransGen NStep m m') {i q : Nat}
    (hi : i < N.n) (hq : q < (N.comp i).nout) (hc : m.closed i q = true) : m'.closed i q = true ∧ (m'.hist i).outs q = (m.hist i).outs q ∧ NReach N m' := by
  induction hs with
  | refl => exact ⟨hc, rfl, h⟩
  | tail _ hst ih =>
    obtain ⟨c, o, r⟩ := ih
    have := closed_step hp hf r hst hi hq c
    exact ⟨this.1, this.2.trans o, .step r hst⟩
end

/-! ## Pipelines -/

theorem Op.build_shape [DecidableEq K] {o : Op α K} {cs : List (Comp (Val α) (Ev α K))} (h : o.build = some cs) :
    (cs = [] ∧ ∃ n : Int, o = .skip n ∧ n = 0) ∨ ∃ C, cs = [C] ∧ C.nin = 1 ∧ C.nout = 1 := by
  cases o with
  | skip n =>
    rw [Op.build] at h
    split at h
    · simp at h
    · split at h
      · simp only [Option.some.injEq] at h; exact .inl ⟨h.symm, n, rfl, by assumption⟩
      · simp only [Option.some.injEq] at h; exact .inr ⟨_, h.symm, rfl, rfl⟩
  | split n => rw [Op.build] at h; split at h <;> simp only [Option.some.injEq, reduceCtorEq] at h; exact .inr ⟨_, h.symm, rfl, rfl⟩
  | splitSteam n => rw [Op.build] at h; split at h <;> simp only [Option.some.injEq, reduceCtorEq] at h; exact .inr ⟨_, h.symm, rfl, rfl⟩
  | limit n =>
    rw [Op.build] at h
    split at h
    · simp only [Option.some.injEq] at h; exact .inr ⟨_, h.symm, rfl, rfl⟩
    · split at h <;> simp only [Option.some.injEq, reduceCtorEq] at h
      exact .inr ⟨_, h.symm, rfl, rfl⟩
  | tail n =>
    rw [Op.build] at h
    split at h
    · split at h <;> simp only [Option.some.injEq, reduceCtorEq] at h
      exact .inr ⟨_, h.symm, rfl, rfl⟩
    · simp only [Option.some.injEq] at h; exact .inr ⟨_, h.symm, rfl, rfl⟩
  | _ => simp only [Op.build, Option.some.injEq] at h; exact .inr ⟨_, h.symm, rfl, rfl⟩

/-- The operations of a chain that have a component. -/
def stages [DecidableEq K] : List (Op α K) → List (Op α K)
  | [] => []
  | o :: ops => match o.build with
    | some [] => stages ops
    | _ => o :: stages ops

/-- The components of a chain are those of its stages, one each. -/
theorem buildAll_stages [DecidableEq K] : ∀ (ops : List (Op α K)) (cs : List (Comp (Val α) (Ev α K))), buildAll ops = some cs →
    List.Forall₂ (fun o C => o.build = some [C] ∧ C.nin = 1 ∧ C.nout = 1) (stages ops) cs
  | [], cs, h => by
    simp only [buildAll, Option.some.injEq] at h; subst h; exact .nil
  | o :: ops, cs, h => by
    simp only [buildAll, Option.bind_eq_bind, Option.bind_eq_some_iff] at h
    obtain ⟨a, ha, b, hb, hc⟩ := h
    simp only [Option.pure_def, Option.some.injEq] at hc
    subst hc
    have ih := buildAll_stages ops b hb
    rcases Op.build_shape ha with ⟨rfl, -⟩ | ⟨C, rfl, h1, h2⟩
    · simpa [stages, ha] using ih
    · have : stages (o :: ops) = o :: stages ops := by simp [stages, ha]
      rw [this]
      exact .cons ⟨ha, h1, h2⟩ ih

/-- Operations without a component do nothing. -/
theorem opsDo_stages [DecidableEq K] : ∀ (ops : List (Op α K)) (cs : List (Comp (Val α) (Ev α K))) {xs zs : List (Val α)} {logs : List (List (Ev α K))},
    buildAll ops = some cs → OpsDo (stages ops) xs zs logs → ∃ logs', OpsDo ops xs zs logs' ∧ logs'.flatten = logs.flatten
  | [], cs, xs, zs, logs, _, h => ⟨logs, h, rfl⟩
  | o :: ops, cs, xs, zs, logs, hb, h => by
    simp only [buildAll, Option.bind_eq_bind, Option.bind_eq_some_iff] at hb
    obtain ⟨a, ha, b, hb, -⟩ := hb
    rcases Op.build_shape ha with ⟨rfl, n, rfl, rfl⟩ | ⟨C, rfl, h1, h2⟩
    · have e : stages (Op.skip 0 :: ops) = stages (K := K) ops := by simp [stages, ha]
      rw [e] at h
      obtain ⟨logs', h1, h2⟩ := opsDo_stages ops b hb h
      exact ⟨[] :: logs', .cons ⟨by simp, rfl⟩ h1, by simpa using h2⟩
    · have e : stages (o :: ops) = o :: stages ops := by simp [stages, ha]
      rw [e] at h
      cases h with
      | cons hd ht =>
        obtain ⟨logs', h1, h2⟩ := opsDo_stages ops b hb ht
        exact ⟨_ :: logs', .cons hd h1, by simp [h2]⟩

section
variable [DecidableEq K]

/-- The nodes of a pipeline. -/
def pipeNodes (src : Source α) (ops : List (Op α K)) (term : Term α K) (i : Nat) : Node α K :=
  match i with
  | 0 => .source src
  | i + 1 => match ops[i]? with
    | some o => .op o
    | none => .term term

theorem source_shape (s : Source α) : (s.comp : Comp (Val α) (Ev α K)).nin = 0 ∧ (s.comp : Comp (Val α) (Ev α K)).nout = 1 := by
  cases s <;> exact ⟨rfl, rfl⟩

theorem term_shape (t : Term α K) : t.comp.nin = 1 ∧ t.comp.nout = 0 := by
  cases t <;> exact ⟨rfl, rfl⟩

/-- The nodes of a chain which starts with the given node. -/
def chainNodes (n₀ : Node α K) (ops : List (Op α K)) (term : Term α K) (i : Nat) : Node α K :=
  match i with
  | 0 => n₀
  | i + 1 => match ops[i]? with
    | some o => .op o
    | none => .term term

theorem pipeNodes_eq (src : Source α) (ops : List (Op α K)) (term : Term α K) : pipeNodes src ops term = chainNodes (.source src) ops term := by
  funext i
  cases i <;> rfl

/-- The component at each place of a chain. -/
theorem chain_comp (C₀ : Comp (Val α) (Ev α K)) (cs : List (Comp (Val α) (Ev α K))) (term : Term α K) :
    (pipe (C₀ :: cs ++ [term.comp])).comp 0 = C₀ ∧
    (∀ (i : Nat) (h : i < cs.length), (pipe (C₀ :: cs ++ [term.comp])).comp (i + 1) = cs[i]) ∧
    (pipe (C₀ :: cs ++ [term.comp])).comp (cs.length + 1) = term.comp := by
  refine ⟨rfl, ?_, ?_⟩
  · intro i h
    simp [pipe, List.getD_eq_getElem?_getD, List.getElem?_append_left h, List.getElem?_eq_getElem h]
  · simp [pipe, List.getD_eq_getElem?_getD]

theorem chain_program {n₀ : Node α K} {C₀ : Comp (Val α) (Ev α K)} (b₀ : n₀.Builds C₀) (v₀ : n₀.Valid) (src0 : C₀.nin = 0 ∧ C₀.nout = 1) {ops : List (Op α K)} (term : Term α K)
    {cs : List (Comp (Val α) (Ev α K))} (hb : List.Forall₂ (fun o C => o.build = some [C] ∧ C.nin = 1 ∧ C.nout = 1) ops cs) (hv : ∀ o ∈ ops, o.Valid) :
    IsProgram (pipe (C₀ :: cs ++ [term.comp])) (chainNodes n₀ ops term) := by
  obtain ⟨p0, p1, p2⟩ := chain_comp C₀ cs term
  have hn : (pipe (C₀ :: cs ++ [term.comp])).n = cs.length + 2 := by simp [pipe]
  have hlen : ops.length = cs.length := hb.length_eq
  have hget : ∀ (i : Nat) (h : i < cs.length), (ops[i]'(by omega)).build = some [cs[i]] ∧ (cs[i]).nin = 1 ∧ (cs[i]).nout = 1 := by
    intro i h
    exact (List.forall₂_iff_get.mp hb).2 i (by omega) h
  have term0 := term_shape term
  have cases3 : ∀ i < cs.length + 2, i = 0 ∨ (∃ j, ∃ h : j < cs.length, i = j + 1) ∨ i = cs.length + 1 := by
    intro i hi
    rcases Nat.eq_zero_or_pos i with h | h
    · exact .inl h
    · by_cases h2 : i = cs.length + 1
      · exact .inr (.inr h2)
      · exact .inr (.inl ⟨i - 1, by omega, by omega⟩)
  have nout1 : ∀ i < cs.length + 1, ((pipe (C₀ :: cs ++ [term.comp])).comp i).nout = 1 := by
    intro i hi
    rcases cases3 i (by omega) with rfl | ⟨j, hj, rfl⟩ | rfl
    · rw [p0]; exact src0.2
    · rw [p1 j hj]; exact (hget j hj).2.2
    · omega
  have nin1 : ∀ i, 0 < i → i < cs.length + 2 → ((pipe (C₀ :: cs ++ [term.comp])).comp i).nin = 1 := by
    intro i h0 hi
    rcases cases3 i (by omega) with rfl | ⟨j, hj, rfl⟩ | rfl
    · omega
    · rw [p1 j hj]; exact (hget j hj).2.1
    · rw [p2]; exact term0.1
  refine ⟨⟨?_, ?_⟩, ?_, ?_⟩
  · rw [hn]
    intro i hi p hp
    have h0 : i ≠ 0 := by rintro rfl; rw [p0, src0.1] at hp; omega
    rw [nin1 i (by omega) hi] at hp
    refine ⟨?_, ?_, ?_⟩
    · show i - 1 < i; omega
    · show 0 < _
      rw [show ((pipe (C₀ :: cs ++ [term.comp])).src i p).1 = i - 1 from rfl, nout1 _ (by omega)]; omega
    · show (i - 1 + 1, 0) = (i, p)
      rw [show i - 1 + 1 = i by omega, show p = 0 by omega]
  · rw [hn]
    intro i hi q hq
    have h0 : i ≠ cs.length + 1 := by rintro rfl; rw [p2, term0.2] at hq; omega
    rw [nout1 i (by omega)] at hq
    refine ⟨?_, ?_, ?_⟩
    · show i + 1 < _; omega
    · show 0 < _
      rw [show ((pipe (C₀ :: cs ++ [term.comp])).dst i q).1 = i + 1 from rfl, nin1 _ (by omega) (by omega)]; omega
    · show (i + 1 - 1, 0) = (i, q)
      rw [show q = 0 by omega]; rfl
  · rw [hn]
    intro i hi
    rcases cases3 i hi with rfl | ⟨j, hj, rfl⟩ | rfl
    · rw [p0]; exact b₀
    · rw [p1 j hj]
      have : chainNodes n₀ ops term (j + 1) = .op ops[j] := by
        simp only [chainNodes]; rw [List.getElem?_eq_getElem (by omega)]
      rw [this]; exact (hget j hj).1
    · rw [p2]
      have : chainNodes n₀ ops term (cs.length + 1) = .term term := by
        simp only [chainNodes]; rw [List.getElem?_eq_none (by omega)]
      rw [this]; rfl
  · rw [hn]
    intro i hi
    rcases cases3 i hi with rfl | ⟨j, hj, rfl⟩ | rfl
    · exact v₀
    · have : chainNodes n₀ ops term (j + 1) = .op ops[j] := by
        simp only [chainNodes]; rw [List.getElem?_eq_getElem (by omega)]
      rw [this]; exact hv _ (by simp)
    · have : chainNodes n₀ ops term (cs.length + 1) = .term term := by
        simp only [chainNodes]; rw [List.getElem?_eq_none (by omega)]
      rw [this]; trivial

theorem pipe_comp (src : Source α) (cs : List (Comp (Val α) (Ev α K))) (term : Term α K) :
    (pipe (src.comp :: cs ++ [term.comp])).comp 0 = src.comp ∧
    (∀ (i : Nat) (h : i < cs.length), (pipe (src.comp :: cs ++ [term.comp])).comp (i + 1) = cs[i]) ∧
    (pipe (src.comp :: cs ++ [term.comp])).comp (cs.length + 1) = term.comp := chain_comp _ cs term

theorem pipe_program (src : Source α) {ops : List (Op α K)} (term : Term α K) {cs : List (Comp (Val α) (Ev α K))}
    (hb : List.Forall₂ (fun o C => o.build = some [C] ∧ C.nin = 1 ∧ C.nout = 1) ops cs) (hv : ∀ o ∈ ops, o.Valid) :
    IsProgram (pipe (src.comp :: cs ++ [term.comp])) (pipeNodes src ops term) := by
  rw [pipeNodes_eq]
  exact chain_program (n₀ := .source src) rfl trivial (source_shape src) term hb hv

/-- From what each node of a chain did to what the chain did. -/
theorem opsDo_of_nodes (hist : Nat → Hist (Val α) (Ev α K)) : ∀ (ops : List (Op α K)) (k : Nat),
    (∀ (j : Nat) (h : j < ops.length), (ops[j]).Does ((hist (k + j)).outs 0) ((hist (k + j + 1)).outs 0) (hist (k + j + 1)).log) →
    OpsDo ops ((hist k).outs 0) ((hist (k + ops.length)).outs 0) ((List.range ops.length).map fun j => (hist (k + j + 1)).log)
  | [], k, _ => .nil _
  | o :: ops, k, h => by
    have h0 := h 0 (by simp)
    have ih := opsDo_of_nodes hist ops (k + 1) (fun j hj => by
      have := h (j + 1) (by simpa using hj)
      simpa only [List.getElem_cons_succ, show k + (j + 1) = k + 1 + j by omega] using this)
    rw [List.length_cons, List.range_succ_eq_map, List.map_cons, List.map_map, show k + (ops.length + 1) = k + 1 + ops.length by omega]
    have e : ((fun j => (hist (k + j + 1)).log) ∘ Nat.succ) = fun j => (hist (k + 1 + j + 1)).log := by
      funext j; simp [show k + (j + 1) + 1 = k + 1 + j + 1 by omega]
    rw [e]
    exact .cons h0 ih

/-- Few values in, and a bound on what the user functions send: few values everywhere. -/
theorem chain_bounded {C₀ : Comp (Val α) (Ev α K)} (src0 : C₀.nin = 0 ∧ C₀.nout = 1) {k : Nat}
    (hk : ∀ s h, CReach C₀ s h → (h.outs 0).length ≤ k) {ops : List (Op α K)} (term : Term α K) {cs : List (Comp (Val α) (Ev α K))}
    (hb : List.Forall₂ (fun o C => o.build = some [C] ∧ C.nin = 1 ∧ C.nout = 1) ops cs) (hv : ∀ o ∈ ops, o.Valid) {b : Nat} (h1 : 1 ≤ b)
    (he : ∀ o ∈ ops, o.Emits b) (hlt : max 1 k * b ^ ops.length < 2 ^ 63) :
    (pipe (C₀ :: cs ++ [term.comp])).Bounded lim fun i _ => if i ≤ cs.length then max 1 k * b ^ i else 0 := by
  obtain ⟨p0, p1, p2⟩ := chain_comp C₀ cs term
  have hn : (pipe (C₀ :: cs ++ [term.comp])).n = cs.length + 2 := by simp [pipe]
  have hlen : ops.length = cs.length := hb.length_eq
  have hget : ∀ (i : Nat) (h : i < cs.length), (ops[i]'(by omega)).build = some [cs[i]] ∧ (cs[i]).nin = 1 ∧ (cs[i]).nout = 1 := by
    intro i h
    exact (List.forall₂_iff_get.mp hb).2 i (by omega) h
  have hone : ∀ i, 1 ≤ max 1 k * b ^ i := fun i =>
    Nat.mul_pos (by omega) (Nat.pow_pos (by omega))
  refine ⟨?_, ?_⟩
  · intro i hi q hq
    have hle : i ≤ cs.length := by
      rw [hn] at hi
      rcases Nat.lt_or_ge cs.length i with h | h
      · have : i = cs.length + 1 := by omega
        subst this
        rw [p2, (term_shape term).2] at hq; omega
      · exact h
    rw [if_pos hle]
    refine Nat.lt_of_le_of_lt ?_ hlt
    exact Nat.mul_le_mul_left _ (Nat.pow_le_pow_right h1 (by omega))
  · intro i hi s h hr hs hin q hq
    rw [hn] at hi
    by_cases hle : i ≤ cs.length
    · rw [if_pos hle]
      cases i with
      | zero =>
        have key : ∀ C : Comp (Val α) (Ev α K), C = C₀ → ∀ (s : C.σ) (h : Hist (Val α) (Ev α K)), CReach C s h → ∀ q < C.nout,
            (h.outs q).length ≤ k := by
          rintro C rfl s h hr q hq
          rw [src0.2] at hq
          have : q = 0 := by omega
          subst this
          exact hk s h hr
        have := key _ p0 s h hr q hq
        simp only [Nat.pow_zero, Nat.mul_one]; omega
      | succ i =>
        have hi' : i < cs.length := by omega
        have hin0 := hin 0 (by rw [p1 i hi', (hget i hi').2.1]; omega)
        rw [show ((pipe (C₀ :: cs ++ [term.comp])).src (i + 1) 0).1 = i from rfl] at hin0
        rw [if_pos (show i ≤ cs.length by omega)] at hin0
        have hone := hone i
        have hbuild : (ops[i]'(by omega)).build = some [(pipe (C₀ :: cs ++ [term.comp])).comp (i + 1)] := by rw [p1 i hi']; exact (hget i hi').1
        have hnin : ((pipe (C₀ :: cs ++ [term.comp])).comp (i + 1)).nin = 1 := by rw [p1 i hi']; exact (hget i hi').2.1
        have h3 := op_grows hbuild (hv _ (by simp)) h1 (he _ (by simp)) s h hr hs q hq
        rw [hnin, if_neg (by omega)] at h3
        refine Nat.le_trans h3 ?_
        rw [Nat.pow_succ, ← Nat.mul_assoc, Nat.mul_comm _ b]
        exact Nat.mul_le_mul_left _ (by omega)
    · rw [if_neg hle]
      have : i = cs.length + 1 := by omega
      subst this
      rw [p2, (term_shape term).2] at hq; omega

theorem chain_of_few {n₀ : Node α K} {C₀ : Comp (Val α) (Ev α K)} (b₀ : n₀.Builds C₀) (v₀ : n₀.Valid) (src0 : C₀.nin = 0 ∧ C₀.nout = 1) {k : Nat}
    (hk : ∀ s h, CReach C₀ s h → (h.outs 0).length ≤ k) {ops : List (Op α K)} (term : Term α K) {cs : List (Comp (Val α) (Ev α K))}
    (hb : List.Forall₂ (fun o C => o.build = some [C] ∧ C.nin = 1 ∧ C.nout = 1) ops cs) (hv : ∀ o ∈ ops, o.Valid) {b : Nat} (h1 : 1 ≤ b)
    (he : ∀ o ∈ ops, o.Emits b) (hlt : max 1 k * b ^ ops.length < 2 ^ 63) : FewValues (pipe (C₀ :: cs ++ [term.comp])) :=
  have hp := chain_program b₀ v₀ src0 term hb hv
  small_of_bounded hp.wf (chain_bounded src0 hk term hb hv h1 he hlt) hp.good

/-! ## Programs that are pipelines -/

variable {src : Source α} {ops : List (Op α K)} {term : Term α K} {N : Net (Val α) (Ev α K)}

theorem stages_sub (ops : List (Op α K)) : ∀ o ∈ stages ops, o ∈ ops := by
  induction ops with
  | nil => simp [stages]
  | cons o ops ih =>
    intro o' h
    unfold stages at h
    split at h
    · exact List.mem_cons_of_mem _ (ih o' h)
    · rcases List.mem_cons.mp h with rfl | h
      · simp
      · exact List.mem_cons_of_mem _ (ih o' h)

theorem stages_length (ops : List (Op α K)) : (stages ops).length ≤ ops.length := by
  induction ops with
  | nil => simp [stages]
  | cons o ops ih =>
    unfold stages
    split <;> simp <;> omega

variable {n₀ : Node α K} {C₀ : Comp (Val α) (Ev α K)}

/-- A program which starts with the component `C₀`: operations, a terminal operation (`program`, for any start). -/
def programFrom (C₀ : Comp (Val α) (Ev α K)) (ops : List (Op α K)) (term : Term α K) : Option (Net (Val α) (Ev α K)) :=
  (buildAll ops).map fun cs => pipe (C₀ :: cs ++ [term.comp])

theorem from_is (b₀ : n₀.Builds C₀) (v₀ : n₀.Valid) (src0 : C₀.nin = 0 ∧ C₀.nout = 1) (h : programFrom C₀ ops term = some N) (hv : ∀ o ∈ ops, o.Valid) :
    IsProgram N (chainNodes n₀ (stages ops) term) ∧ N.n = (stages ops).length + 2 := by
  unfold programFrom at h
  rw [Option.map_eq_some_iff] at h
  obtain ⟨cs, hb, rfl⟩ := h
  have hf := buildAll_stages ops cs hb
  refine ⟨chain_program b₀ v₀ src0 term hf fun o ho => hv o (stages_sub ops o ho), ?_⟩
  simp [pipe, hf.length_eq]

theorem from_few (b₀ : n₀.Builds C₀) (v₀ : n₀.Valid) (src0 : C₀.nin = 0 ∧ C₀.nout = 1) {k : Nat} (hk : ∀ s h, CReach C₀ s h → (h.outs 0).length ≤ k)
    (h : programFrom C₀ ops term = some N) (hv : ∀ o ∈ ops, o.Valid) {b : Nat} (h1 : 1 ≤ b) (he : ∀ o ∈ ops, o.Emits b)
    (hlt : max 1 k * b ^ ops.length < 2 ^ 63) : FewValues N := by
  unfold programFrom at h
  rw [Option.map_eq_some_iff] at h
  obtain ⟨cs, hb, rfl⟩ := h
  have hf := buildAll_stages ops cs hb
  refine chain_of_few b₀ v₀ src0 hk term hf (fun o ho => hv o (stages_sub ops o ho)) h1 (fun o ho => he o (stages_sub ops o ho)) ?_
  refine Nat.lt_of_le_of_lt ?_ hlt
  exact Nat.mul_le_mul_left _ (Nat.pow_le_pow_right h1 (stages_length ops))

/-- What a chain has done when everything has finished. -/
theorem from_result (b₀ : n₀.Builds C₀) (v₀ : n₀.Valid) (src0 : C₀.nin = 0 ∧ C₀.nout = 1) (h : programFrom C₀ ops term = some N) (hv : ∀ o ∈ ops, o.Valid) (hf : FewValues N) {m : NState N} (hr : NReach N m)
    (hd : ∀ i < N.n, (N.comp i).done (m.st i)) :
    ∃ zs logs, n₀.Does (m.hist 0).ins (m.hist 0).outs (m.hist 0).log ∧ OpsDo ops ((m.hist 0).outs 0) zs logs ∧ term.Does zs (m.hist (N.n - 1)).log ∧
      logs.flatten = (List.range (N.n - 2)).flatMap fun j => (m.hist (j + 1)).log := by
  obtain ⟨hp, hn⟩ := from_is b₀ v₀ src0 h hv
  have hb : ∃ cs, buildAll ops = some cs := by
    unfold programFrom at h
    rw [Option.map_eq_some_iff] at h
    obtain ⟨cs, hb, -⟩ := h
    exact ⟨cs, hb⟩
  obtain ⟨cs, hb⟩ := hb
  obtain ⟨f1, f2⟩ := final hp.wf hf hp.good hr hd
  have hsrc : ∀ i, N.src i 0 = (i - 1, 0) := by
    unfold programFrom at h
    rw [Option.map_eq_some_iff] at h
    obtain ⟨cs, -, rfl⟩ := h
    intro i; rfl
  have hnin : ∀ i, 0 < i → i < N.n → 0 < (N.comp i).nin := by
    have hf2 := buildAll_stages ops cs hb
    unfold programFrom at h
    rw [Option.map_eq_some_iff] at h
    obtain ⟨cs', hb', rfl⟩ := h
    rw [hb] at hb'; simp only [Option.some.injEq] at hb'; subst hb'
    intro i h0 hi
    obtain ⟨p0, p1, p2⟩ := chain_comp C₀ cs term
    rw [hn, hf2.length_eq] at hi
    cases i with
    | zero => omega
    | succ i =>
      by_cases e : i < cs.length
      · rw [p1 i e]
        have := (List.forall₂_iff_get.mp hf2).2 i (by rw [hf2.length_eq]; exact e) e
        simp only [List.get_eq_getElem] at this
        omega
      · have : i = cs.length := by omega
        subst this
        rw [p2, (term_shape term).1]; omega
  have hins : ∀ i, i + 1 < N.n → (m.hist (i + 1)).ins 0 = (m.hist i).outs 0 := by
    intro i hi
    have := f2 (i + 1) hi 0 (hnin (i + 1) (by omega) hi)
    rw [hsrc] at this
    exact this
  have hops := opsDo_of_nodes m.hist (stages ops) 0 (fun j hj => by
    have h1 := f1 (j + 1) (by omega)
    have e : chainNodes n₀ (stages ops) term (j + 1) = .op (stages ops)[j] := by
      simp only [chainNodes]; rw [List.getElem?_eq_getElem hj]
    rw [e] at h1
    have h2 : ((stages ops)[j]).Does ((m.hist (j + 1)).ins 0) ((m.hist (j + 1)).outs 0) (m.hist (j + 1)).log := h1
    rw [hins j (by omega)] at h2
    simpa only [Nat.zero_add] using h2)
  obtain ⟨logs, l1, l2⟩ := opsDo_stages ops cs hb hops
  refine ⟨_, logs, f1 0 (by omega), l1, ?_, ?_⟩
  · have h1 := f1 ((stages ops).length + 1) (by omega)
    have e : chainNodes n₀ (stages ops) term ((stages ops).length + 1) = .term term := by
      simp only [chainNodes]; rw [List.getElem?_eq_none (by omega)]
    rw [e] at h1
    have h2 : term.Does ((m.hist ((stages ops).length + 1)).ins 0) (m.hist ((stages ops).length + 1)).log := h1
    rw [hins _ (by omega)] at h2
    rw [Nat.zero_add, hn]
    exact h2
  · rw [l2, hn, Nat.add_sub_cancel, List.flatMap_def]
    simp only [Nat.zero_add]

theorem program_is (h : program src ops term = some N) (hv : ∀ o ∈ ops, o.Valid) :
    IsProgram N (pipeNodes src (stages ops) term) ∧ N.n = (stages ops).length + 2 := by
  rw [pipeNodes_eq]
  exact from_is (n₀ := .source src) rfl trivial (source_shape src) h hv

theorem source_sends (src : Source α) (s : (src.comp : Comp (Val α) (Ev α K)).σ) (h : Hist (Val α) (Ev α K)) (hr : CReach src.comp s h) :
    (h.outs 0).length ≤ src.items.length := by
  have hs : Small lim src.comp h := fun p hp => by rw [(source_shape src).1] at hp; omega
  have hq : 0 < (src.comp : Comp (Val α) (Ev α K)).nout := by rw [(source_shape src).2]; omega
  cases src <;> exact (source_fine _ _).2.2 s h hr hs 0 hq

theorem program_few (h : program src ops term = some N) (hv : ∀ o ∈ ops, o.Valid) {b : Nat} (h1 : 1 ≤ b) (he : ∀ o ∈ ops, o.Emits b)
    (hlt : max 1 src.items.length * b ^ ops.length < 2 ^ 63) : FewValues N := by
  exact from_few (n₀ := .source src) rfl trivial (source_shape src) (source_sends src) h hv h1 he hlt

/-- What a pipeline has done when everything has finished. -/
theorem program_result (h : program src ops term = some N) (hv : ∀ o ∈ ops, o.Valid) (hf : FewValues N) {m : NState N} (hr : NReach N m)
    (hd : ∀ i < N.n, (N.comp i).done (m.st i)) :
    ∃ zs logs, OpsDo ops src.items zs logs ∧ term.Does zs (m.hist (N.n - 1)).log ∧
      logs.flatten = (List.range (N.n - 2)).flatMap fun j => (m.hist (j + 1)).log := by
  obtain ⟨zs, logs, h0, h1, h2⟩ := from_result (n₀ := .source src) rfl trivial (source_shape src) h hv hf hr hd
  rw [show (m.hist 0).outs 0 = src.items from h0.1] at h1
  exact ⟨zs, logs, h1, h2⟩

end

end Verif.XStream

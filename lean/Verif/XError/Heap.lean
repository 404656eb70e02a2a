import Verif.XError.Model
/-!
# `BatchError` with the arrays behind its slices (C126)

The model of `xerror/err.go` in `Model.lean` takes `errs` to be a list. Here `errs` is a slice, so the error returned by `Err` and copies of the
`BatchError` share their array with it. Simplification: one goroutine.
-/
namespace Verif.XError.Heap
open Verif.Go

variable {E : Type}

/-! ## Model -/

/-- A slice that starts at the first element of its array; `cap = 0` is the nil slice. -/
structure Slice where
  arr : Nat
  len : Nat
  cap : Nat
  deriving DecidableEq

/-- err.go:40-49: what `Err` returns; `errorArray` is a slice. -/
inductive Handle (E : Type) where
  | nil
  | one (e : E)
  | array (s : Slice)

/-- The memory of a program that uses `BatchError` variables (err.go:23-30). -/
structure St (E : Type) where
  /-- the elements of the arrays -/
  mem : Nat → Nat → Option E
  /-- arrays from this one on are not in use -/
  next : Nat
  /-- the field `errs` of the `BatchError` variables of the program (err.go:25-27) -/
  var : Nat → Slice
  /-- the results of the calls of `Err`, the last one first -/
  out : List (Handle E)

/-- All variables have the zero value. -/
def St.init : St E := ⟨fun _ _ => none, 0, fun _ => ⟨0, 0, 0⟩, []⟩

/-- What a program does with them: err.go:33 `Add`, 40 `Err`, and assignment. -/
inductive Op (E : Type) where
  /-- `b.Add(err)` -/
  | add (b : Nat) (err : Option E)
  /-- `b.Err()` -/
  | err (b : Nat)
  /-- `b = a` -/
  | copy (a b : Nat)

/-- Change of one value of a function. -/
def set {α : Type} (f : Nat → α) (i : Nat) (a : α) : Nat → α := fun j => if j = i then a else f j

/-- The elements of a slice. -/
def St.read (s : St E) (v : Slice) : List E := (List.range v.len).filterMap (s.mem v.arr)

/-- `append(v, e)`: if the array is full, `grow` gives the capacity of the new one (anything that is large enough). -/
def St.append (s : St E) (v : Slice) (e : E) (grow : Nat) : St E × Slice :=
  if v.len < v.cap then
    ({ s with mem := set s.mem v.arr (set (s.mem v.arr) v.len (some e)) }, { v with len := v.len + 1 })
  else
    ({ s with mem := set s.mem s.next (fun i => if i < v.len then s.mem v.arr i else if i = v.len then some e else none), next := s.next + 1 },
      ⟨s.next, v.len + 1, max grow (v.len + 1)⟩)

/-- err.go:33-49, and an assignment of structs. -/
def step (s : St E) (op : Op E) (grow : Nat) : St E :=
  match op with
  | .add _ none => s
  | .add b (some e) => let (s', v) := s.append (s.var b) e grow; { s' with var := set s'.var b v }
  | .err b =>
    let h : Handle E :=
      if (s.var b).len = 0 then .nil
      else if (s.var b).len = 1 then match s.mem (s.var b).arr 0 with
        | some e => .one e
        | none => .nil
      else .array (s.var b)
    { s with out := h :: s.out }
  | .copy a b => { s with var := set s.var b (s.var a) }

/-- Several operations; the number beside each is the capacity that `append` (err.go:35) chooses. -/
def run (s : St E) : List (Op E × Nat) → St E
  | [] => s
  | (op, grow) :: ops => run (step s op grow) ops

/-- What the result of an `Err` stands for when it is looked at. -/
def Handle.value (s : St E) : Handle E → Res E
  | .nil => .nil
  | .one e => .one e
  | .array v => .array (s.read v)

/-! ## Specification: values -/

/-- The variables are values that share nothing, and the results of `Err` do not change: the model of C03. -/
structure Val (E : Type) where
  var : Nat → BatchError E
  out : List (Res E)

/-- Specification: all variables are empty. -/
def Val.init : Val E := ⟨fun _ => .zero, []⟩

/-- Specification: one operation on values. -/
def vstep (s : Val E) : Op E → Val E
  | .add b err => { s with var := set s.var b ((s.var b).add err) }
  | .err b => { s with out := (s.var b).err :: s.out }
  | .copy a b => { s with var := set s.var b (s.var a) }

/-- Specification: several operations on values. -/
def vrun (s : Val E) : List (Op E × Nat) → Val E
  | [] => s
  | (op, _) :: ops => vrun (vstep s op) ops

/-- After `b = a` errors are added to one of the two only. `F`: the variables to which nothing may be added. -/
inductive Single : (Nat → Prop) → List (Op E × Nat) → Prop where
  | nil (F : Nat → Prop) : Single F []
  | add (F : Nat → Prop) (b : Nat) (err : Option E) (grow : Nat) (ops : List (Op E × Nat)) : ¬ F b → Single F ops → Single F ((.add b err, grow) :: ops)
  | err (F : Nat → Prop) (b grow : Nat) (ops : List (Op E × Nat)) : Single F ops → Single F ((.err b, grow) :: ops)
  /-- the copy is only looked at -/
  | look (F : Nat → Prop) (a b grow : Nat) (ops : List (Op E × Nat)) : a ≠ b → Single (set F b True) ops → Single F ((.copy a b, grow) :: ops)
  /-- the copy takes the place of the original -/
  | move (F : Nat → Prop) (a b grow : Nat) (ops : List (Op E × Nat)) : a ≠ b → Single (set (set F b (F a)) a True) ops →
      Single F ((.copy a b, grow) :: ops)

/-- No `BatchError` is copied. -/
def NoCopy (ops : List (Op E × Nat)) : Prop := ∀ a b grow, (.copy a b, grow) ∉ ops

/-! ## Proofs -/

@[simp] theorem set_self {α : Type} (f : Nat → α) (i : Nat) (a : α) : set f i a i = a := by simp [set]

theorem set_ne {α : Type} (f : Nat → α) {i j : Nat} (a : α) (h : j ≠ i) : set f i a j = f j := by simp [set, h]

theorem filterMap_congr' {α : Type} {f g : Nat → Option α} : ∀ n, (∀ i, i < n → f i = g i) →
    (List.range n).filterMap f = (List.range n).filterMap g
  | 0, _ => rfl
  | n + 1, h => by
    rw [List.range_succ, List.filterMap_append, List.filterMap_append, filterMap_congr' n fun i hi => h i (by omega)]
    simp only [List.filterMap_cons, List.filterMap_nil, h n (by omega)]

theorem read_congr {s s' : St E} {v : Slice} (h : ∀ i, i < v.len → s'.mem v.arr i = s.mem v.arr i) : s'.read v = s.read v :=
  filterMap_congr' _ h

theorem append_read (s : St E) (v : Slice) (e : E) (grow : Nat) : (s.append v e grow).1.read (s.append v e grow).2 = s.read v ++ [e] := by
  unfold St.append
  split
  · simp only [St.read, List.range_succ, List.filterMap_append, set_self, List.filterMap_cons, List.filterMap_nil]
    rw [filterMap_congr' (g := s.mem v.arr) _ fun i hi => set_ne _ _ (by omega)]
  · simp only [St.read, List.range_succ, List.filterMap_append, set_self, List.filterMap_cons, List.filterMap_nil, Nat.lt_irrefl, if_false, if_true]
    rw [filterMap_congr' (g := s.mem v.arr) _ fun i hi => by simp [hi]]

/-- Proof only: part of an invariant or simulation; models no code. -/
structure Inv (F : Nat → Prop) (s : St E) (a : Val E) : Prop where
  var : ∀ b, s.read (s.var b) = (a.var b).errs ∧ (s.var b).len = (a.var b).errs.length
  out : s.out.map (Handle.value s) = a.out
  cap : ∀ b, (s.var b).len ≤ (s.var b).cap ∧ ((s.var b).cap = 0 ∨ (s.var b).arr < s.next)
  outs : ∀ v, .array v ∈ s.out → v.arr < s.next
  owner : ∀ b, ¬ F b → (s.var b).cap ≠ 0 →
    (∀ c, c ≠ b → (s.var c).cap ≠ 0 → (s.var c).arr = (s.var b).arr → F c ∧ (s.var c).len ≤ (s.var b).len) ∧
    ∀ v, .array v ∈ s.out → v.arr = (s.var b).arr → v.len ≤ (s.var b).len

theorem inv_init (F : Nat → Prop) : Inv (E := E) F St.init Val.init where
  var := by intro b; simp [St.init, Val.init, St.read, BatchError.zero]
  out := rfl
  cap := by intro b; simp [St.init]
  outs := by intro v hv; simp [St.init] at hv
  owner := by intro b _ hc; simp [St.init] at hc

theorem out_congr {s s' : St E} {l : List (Handle E)} (h : ∀ v, .array v ∈ l → s'.read v = s.read v) :
    l.map (Handle.value s') = l.map (Handle.value s) := by
  refine List.map_congr_left fun x hx => ?_
  cases x with
  | nil => rfl
  | one e => rfl
  | array v => simp only [Handle.value, h v hx]

theorem Inv.add {F : Nat → Prop} {s : St E} {a : Val E} (h : Inv F s a) {b : Nat} (hb : ¬ F b) (err : Option E) (grow : Nat) :
    Inv F (step s (.add b err) grow) (vstep a (.add b err)) := by
  cases err with
  | none =>
    have e : set a.var b ((a.var b).add none) = a.var := by funext j; by_cases hj : j = b <;> simp [set, hj, BatchError.add]
    simp only [step, vstep, e]; exact h
  | some e =>
    have hr := append_read s (s.var b) e grow
    have hv := h.var b
    by_cases hlt : (s.var b).len < (s.var b).cap
    · have hc : (s.var b).cap ≠ 0 := by omega
      obtain ⟨o1, o2⟩ := h.owner b hb hc
      simp only [St.append, hlt, if_true] at hr
      have key : ∀ v : Slice, (v.arr = (s.var b).arr → v.len ≤ (s.var b).len) →
          ({ s with mem := set s.mem (s.var b).arr (set (s.mem (s.var b).arr) (s.var b).len (some e)) } : St E).read v = s.read v := by
        intro v hv
        refine read_congr fun i hi => ?_
        by_cases ha : v.arr = (s.var b).arr
        · have := hv ha
          simp only [ha, set_self]; rw [set_ne _ _ (by omega)]
        · simp only [set_ne _ _ ha]
      simp only [step, vstep, St.append, hlt, if_true]
      refine ⟨fun c => ?_, ?_, fun c => ?_, h.outs, fun c hcF hcc => ?_⟩
      · by_cases e' : c = b
        · subst e'
          simp only [set_self, BatchError.add]
          exact ⟨by rw [← hv.1]; exact hr, by simp [hv.2]⟩
        · simp only [set_ne _ _ e']
          refine ⟨?_, (h.var c).2⟩
          rw [← (h.var c).1]
          by_cases hcz : (s.var c).cap = 0
          · have := (h.cap c).1
            have hl : (s.var c).len = 0 := by omega
            simp [St.read, hl]
          · exact key _ fun ha => (o1 c e' hcz ha).2
      · rw [← h.out]; exact out_congr fun v hv => key v fun ha => o2 v hv ha
      · by_cases e' : c = b
        · subst e'; simp only [set_self]; exact ⟨by omega, (h.cap c).2⟩
        · simp only [set_ne _ _ e']; exact h.cap c
      · by_cases e' : c = b
        · subst e'
          simp only [set_self] at hcc ⊢
          refine ⟨fun x hx hxc hxa => ?_, fun v hv ha => ?_⟩
          · simp only [set_ne _ _ hx] at hxc hxa ⊢
            have := o1 x hx hxc hxa
            exact ⟨this.1, by omega⟩
          · have := o2 v hv ha; omega
        · simp only [set_ne _ _ e'] at hcc ⊢
          obtain ⟨p1, p2⟩ := h.owner c hcF hcc
          refine ⟨fun x hx hxc hxa => ?_, p2⟩
          by_cases ex : x = b
          · subst ex
            simp only [set_self] at hxa
            exact absurd (p1 x hx hc hxa).1 hb
          · simp only [set_ne _ _ ex] at hxc hxa ⊢
            exact p1 x hx hxc hxa
    · simp only [St.append, hlt, if_false] at hr
      have key : ∀ v : Slice, (v.len = 0 ∨ v.arr < s.next) →
          ({ s with mem := set s.mem s.next (fun i => if i < (s.var b).len then s.mem (s.var b).arr i else if i = (s.var b).len then some e else none), next := s.next + 1 } : St E).read v = s.read v := by
        intro v hv
        refine read_congr fun i hi => ?_
        simp only [set_ne _ _ (show v.arr ≠ s.next by omega)]
      have klen : ∀ c, (s.var c).len = 0 ∨ (s.var c).arr < s.next := fun c => by
        have := h.cap c; omega
      simp only [step, vstep, St.append, hlt, if_false]
      refine ⟨fun c => ?_, ?_, fun c => ?_, fun v hv => ?_, fun c hcF hcc => ?_⟩
      · by_cases e' : c = b
        · subst e'
          simp only [set_self, BatchError.add]
          exact ⟨by rw [← hv.1]; exact hr, by simp [hv.2]⟩
        · simp only [set_ne _ _ e']
          refine ⟨?_, (h.var c).2⟩
          rw [← (h.var c).1]; exact key _ (klen c)
      · rw [← h.out]; exact out_congr fun v hv => key v (.inr (h.outs v hv))
      · by_cases e' : c = b
        · subst e'; simp only [set_self]; omega
        · simp only [set_ne _ _ e']; have := h.cap c; omega
      · have := h.outs v hv; simp only; omega
      · by_cases e' : c = b
        · subst e'
          simp only [set_self] at hcc ⊢
          refine ⟨fun x hx hxc hxa => ?_, fun v hv ha => ?_⟩
          · simp only [set_ne _ _ hx] at hxc hxa
            have := h.cap x; omega
          · have := h.outs v hv; omega
        · simp only [set_ne _ _ e'] at hcc ⊢
          obtain ⟨p1, p2⟩ := h.owner c hcF hcc
          refine ⟨fun x hx hxc hxa => ?_, p2⟩
          by_cases ex : x = b
          · subst ex
            simp only [set_self] at hxa
            have := h.cap c; omega
          · simp only [set_ne _ _ ex] at hxc hxa ⊢
            exact p1 x hx hxc hxa

theorem Inv.err {F : Nat → Prop} {s : St E} {a : Val E} (h : Inv F s a) (b grow : Nat) : Inv F (step s (.err b) grow) (vstep a (.err b)) := by
  obtain ⟨h1, h2⟩ := h.var b
  have hval : ∀ x : Handle E, Handle.value (step s (.err b) grow) x = Handle.value s x := by intro x; cases x <;> rfl
  refine ⟨h.var, ?_, h.cap, ?_, ?_⟩
  · show List.map _ (_ :: s.out) = _
    simp only [List.map_cons, vstep, List.map_congr_left fun x (_ : x ∈ s.out) => hval x, h.out]
    congr 1
    cases he : (a.var b).errs with
    | nil => simp [he] at h2; simp [h2, Handle.value, BatchError.err, he]
    | cons e l =>
      rw [he] at h1 h2
      cases l with
      | nil =>
        simp only [List.length_cons, List.length_nil] at h2
        simp only [St.read, h2, List.range_succ, List.range_zero, List.nil_append, List.filterMap_cons, List.filterMap_nil] at h1
        cases hm : s.mem (s.var b).arr 0 with
        | none => simp [hm] at h1
        | some e' =>
          simp only [hm, List.cons.injEq, and_true] at h1
          subst h1
          simp [h2, Handle.value, BatchError.err, he]
      | cons e2 l =>
        simp only [List.length_cons] at h2
        rw [if_neg (by omega), if_neg (by omega)]
        simp only [Handle.value, BatchError.err, he]
        congr 1
  · intro v hv
    rcases List.mem_cons.mp hv with hv | hv
    · split at hv
      · simp at hv
      · split at hv
        · split at hv <;> simp at hv
        · simp only [Handle.array.injEq] at hv
          subst hv
          have := h.cap b
          show (s.var b).arr < s.next
          omega
    · exact h.outs v hv
  · intro c hc hcc
    obtain ⟨p1, p2⟩ := h.owner c hc hcc
    refine ⟨p1, fun v hv ha => ?_⟩
    rcases List.mem_cons.mp hv with hv | hv
    · split at hv
      · simp at hv
      · split at hv
        · split at hv <;> simp at hv
        · simp only [Handle.array.injEq] at hv
          subst hv
          by_cases e : b = c
          · subst e; exact Nat.le_refl _
          · have := h.cap b
            exact (p1 b e (by omega) ha).2
    · exact p2 v hv ha

/-- After `b = a`; `G` tells to which variables nothing may be added from now on: one of the two belongs to them. -/
theorem Inv.copy {F G : Nat → Prop} {s : St E} {x : Val E} (h : Inv F s x) {a b : Nat} (grow : Nat) (hab : a ≠ b)
    (ho : ∀ c, c ≠ a → c ≠ b → (G c ↔ F c)) (hg : (G a ↔ F a) ∧ G b ∨ G a ∧ (G b ↔ F a)) :
    Inv G (step s (.copy a b) grow) (vstep x (.copy a b)) := by
  have hval : ∀ y : Handle E, Handle.value (step s (.copy a b) grow) y = Handle.value s y := by intro y; cases y <;> rfl
  have hvar : ∀ c, (step s (.copy a b) grow).var c = if c = b then s.var a else s.var c := fun c => rfl
  refine ⟨fun c => ?_, ?_, fun c => ?_, h.outs, fun c hc hcc => ?_⟩
  · by_cases e : c = b
    · subst e; simp only [step, vstep, set_self]; exact h.var a
    · simp only [step, vstep, set_ne _ _ e]; exact h.var c
  · show List.map _ s.out = x.out
    rw [← h.out]; exact List.map_congr_left fun y _ => hval y
  · rw [hvar]
    split
    · exact h.cap a
    · exact h.cap c
  · rw [hvar] at hcc ⊢
    have hFa : c = b → ¬ F a := fun e => by
      subst e
      rcases hg with ⟨_, hg⟩ | ⟨_, hg⟩
      · exact absurd hg hc
      · exact fun hf => hc (hg.mpr hf)
    have hFc : c ≠ b → ¬ F c := fun e => by
      by_cases e' : c = a
      · subst e'
        rcases hg with ⟨hg, _⟩ | ⟨hg, _⟩
        · exact fun hf => hc (hg.mpr hf)
        · exact absurd hg hc
      · exact fun hf => hc ((ho c e' e).mpr hf)
    by_cases e : c = b
    · subst e
      simp only [if_true] at hcc ⊢
      obtain ⟨p1, p2⟩ := h.owner a (hFa rfl) hcc
      refine ⟨fun y hy hyc hya => ?_, p2⟩
      rw [hvar, if_neg hy] at hyc hya ⊢
      by_cases ey : y = a
      · subst ey
        rcases hg with ⟨_, hg⟩ | ⟨hg, _⟩
        · exact absurd hg hc
        · exact ⟨hg, Nat.le_refl _⟩
      · have := p1 y ey hyc hya
        exact ⟨(ho y ey hy).mpr this.1, this.2⟩
    · simp only [e, if_false] at hcc ⊢
      obtain ⟨p1, p2⟩ := h.owner c (hFc e) hcc
      refine ⟨fun y hy hyc hya => ?_, p2⟩
      rw [hvar] at hyc hya ⊢
      by_cases ey : y = b
      · subst ey
        simp only [if_true] at hyc hya ⊢
        by_cases ea : a = c
        · subst ea
          rcases hg with ⟨_, hg⟩ | ⟨hg, _⟩
          · exact ⟨hg, Nat.le_refl _⟩
          · exact absurd hg hc
        · have := p1 a ea hyc hya
          refine ⟨?_, this.2⟩
          rcases hg with ⟨_, hg⟩ | ⟨_, hg⟩
          · exact hg
          · exact hg.mpr this.1
      · simp only [ey, if_false] at hyc hya ⊢
        have := p1 y hy hyc hya
        refine ⟨?_, this.2⟩
        by_cases ea : y = a
        · subst ea
          rcases hg with ⟨hg, _⟩ | ⟨hg, _⟩
          · exact hg.mpr this.1
          · exact hg
        · exact (ho y ea ey).mpr this.1

theorem run_inv {F : Nat → Prop} {s : St E} {a : Val E} (h : Inv F s a) {ops : List (Op E × Nat)} (hs : Single F ops) :
    ∃ G, Inv G (run s ops) (vrun a ops) := by
  induction hs generalizing s a with
  | nil F => exact ⟨F, h⟩
  | add F b err grow ops hb _ ih => exact ih (h.add hb err grow)
  | err F b grow ops _ ih => exact ih (h.err b grow)
  | look F a' b grow ops hab _ ih =>
    refine ih (h.copy grow hab (fun c h1 h2 => by rw [set_ne _ _ h2]) (.inl ⟨by rw [set_ne _ _ hab], by simp⟩))
  | move F a' b grow ops hab _ ih =>
    refine ih (h.copy grow hab (fun c h1 h2 => by rw [set_ne _ _ h1, set_ne _ _ h2]) (.inr ⟨by simp, by rw [set_ne _ _ (Ne.symm hab), set_self]⟩))

theorem NoCopy.single : ∀ {ops : List (Op E × Nat)}, NoCopy ops → Single (fun _ => False) ops
  | [], _ => .nil _
  | (.add _ _, _) :: _, h => .add _ _ _ _ _ (fun h => h) (NoCopy.single fun x y z hm => h x y z (List.mem_cons_of_mem _ hm))
  | (.err _, _) :: _, h => .err _ _ _ _ (NoCopy.single fun x y z hm => h x y z (List.mem_cons_of_mem _ hm))
  | (.copy a b, grow) :: _, h => absurd List.mem_cons_self (h a b grow)

/-- The operations after a call of `Err` leave its result in its place. -/
theorem run_append (s : St E) (ops ops' : List (Op E × Nat)) : run s (ops ++ ops') = run (run s ops) ops' := by
  induction ops generalizing s with
  | nil => rfl
  | cons x l ih => exact ih _

theorem vrun_out (s : Val E) (ops : List (Op E × Nat)) : ∃ l, (vrun s ops).out = l ++ s.out := by
  induction ops generalizing s with
  | nil => exact ⟨[], rfl⟩
  | cons x l ih =>
    obtain ⟨op, grow⟩ := x
    obtain ⟨l', hl⟩ := ih (vstep s op)
    cases op with
    | add b e => exact ⟨l', hl⟩
    | err b => exact ⟨l' ++ [(s.var b).err], by simpa [vrun, vstep] using hl⟩
    | copy a b => exact ⟨l', hl⟩

theorem run_out (s : St E) (ops : List (Op E × Nat)) : ∃ l, (run s ops).out = l ++ s.out := by
  induction ops generalizing s with
  | nil => exact ⟨[], rfl⟩
  | cons x l ih =>
    obtain ⟨op, grow⟩ := x
    obtain ⟨l', hl⟩ := ih (step s op grow)
    cases op with
    | add b e =>
      cases e with
      | none => exact ⟨l', hl⟩
      | some e =>
        refine ⟨l', hl.trans ?_⟩
        simp only [step, St.append]
        split <;> rfl
    | err b => exact ⟨l' ++ [_], by simpa [run, step] using hl⟩
    | copy a b => exact ⟨l', hl⟩

theorem Single.prefix {F : Nat → Prop} : ∀ {ops ops' : List (Op E × Nat)}, Single F (ops ++ ops') → Single F ops
  | [], _, _ => .nil _
  | _ :: ops, ops', h => by
    rw [List.cons_append] at h
    cases h with
    | add _ _ _ _ _ hb h => exact .add _ _ _ _ _ hb h.prefix
    | err _ _ _ _ h => exact .err _ _ _ _ h.prefix
    | look _ _ _ _ _ hab h => exact .look _ _ _ _ _ hab h.prefix
    | move _ _ _ _ _ hab h => exact .move _ _ _ _ _ hab h.prefix

theorem vrun_append (s : Val E) (ops ops' : List (Op E × Nat)) : vrun s (ops ++ ops') = vrun (vrun s ops) ops' := by
  induction ops generalizing s with
  | nil => rfl
  | cons x l ih => exact ih _

/-! ## Theorems -/

/-- **C126.** If after a copy of a `BatchError` errors are added to one of the two only, `BatchError`s are values: what a variable holds is what was
added to it, and what an error returned by `Err` stands for, looked at at any later time, is what was there when `Err` was called. -/
theorem C126_values_partial {ops : List (Op E × Nat)} (hs : Single (fun _ => False) ops) :
    (∀ b, (run St.init ops).read ((run St.init ops).var b) = ((vrun Val.init ops).var b).errs) ∧
    (run St.init ops).out.map (Handle.value (run St.init ops)) = (vrun Val.init ops).out := by
  obtain ⟨G, h⟩ := run_inv (inv_init _) hs
  exact ⟨fun b => (h.var b).1, h.out⟩

/-- **C126.** Under the same condition an error returned by `Err` does not change: whatever is done later, it stands for the same errors. -/
theorem C126_stable_partial {ops ops' : List (Op E × Nat)} (hs : Single (fun _ => False) (ops ++ ops')) {h : Handle E}
    (hh : h ∈ (run St.init ops).out) : h.value (run St.init (ops ++ ops')) = h.value (run St.init ops) := by
  have h1 := (C126_values_partial hs).2
  have h2 := (C126_values_partial hs.prefix).2
  obtain ⟨l, hl⟩ := run_out (run St.init ops) ops'
  obtain ⟨l', hl'⟩ := vrun_out (vrun Val.init ops) ops'
  rw [vrun_append, hl', ← h2, run_append, hl, List.map_append] at h1
  have h3 := List.append_inj_right' h1 (by simp)
  rw [run_append]
  exact List.map_inj_left.mp h3 h hh

/-- **C126.** In particular this is so if no `BatchError` is copied. -/
theorem C126_no_copy {ops ops' : List (Op E × Nat)} (hs : NoCopy (ops ++ ops')) {h : Handle E} (hh : h ∈ (run St.init ops).out) :
    h.value (run St.init (ops ++ ops')) = h.value (run St.init ops) := C126_stable_partial hs.single hh

/-- **C126** is false of the code without the condition: three errors are added to a `BatchError`, it is copied, a fourth one is added to the
original and `Err` is called; adding an error to the copy changes the error that `Err` has returned. The capacities are those of Go's `append`. -/
theorem C126_stable_refuted : ∃ (ops ops' : List (Op Nat × Nat)) (h : Handle Nat), h ∈ (run St.init ops).out ∧
    h.value (run St.init ops) = .array [1, 2, 3, 4] ∧ h.value (run St.init (ops ++ ops')) = .array [1, 2, 3, 5] :=
  ⟨[(.add 0 (some 1), 1), (.add 0 (some 2), 2), (.add 0 (some 3), 4), (.copy 0 1, 0), (.add 0 (some 4), 0), (.err 0, 0)], [(.add 1 (some 5), 0)],
    .array ⟨2, 4, 4⟩, List.mem_singleton.mpr rfl, rfl, rfl⟩

/-! ## Examples -/

/-- Errors are added, `Err` is called, a copy is made and read, more errors are added to the original. -/
def demoOps : List (Op Nat × Nat) := [(.add 0 (some 1), 1), (.add 0 none, 0), (.add 0 (some 2), 2), (.add 0 (some 3), 4), (.err 0, 0), (.copy 0 1, 0)]

/-- For the concrete cases beside the theorems. -/
def demoLater : List (Op Nat × Nat) := [(.err 1, 0), (.add 0 (some 4), 0), (.err 0, 0), (.add 0 (some 5), 8)]

theorem demoSingle : Single (fun _ => False) (demoOps ++ demoLater) :=
  .add _ _ _ _ _ id <| .add _ _ _ _ _ id <| .add _ _ _ _ _ id <| .add _ _ _ _ _ id <| .err _ _ _ _ <| .look _ _ _ _ _ (by decide) <| .err _ _ _ _ <|
    .add _ _ _ _ _ (by simp [set]) <| .err _ _ _ _ <| .add _ _ _ _ _ (by simp [set]) <| .nil _

example : (run St.init (demoOps ++ demoLater)).out.map (Handle.value (run St.init (demoOps ++ demoLater))) =
    [.array [1, 2, 3, 4], .array [1, 2, 3], .array [1, 2, 3]] := (C126_values_partial demoSingle).2

example : Handle.value (run St.init (demoOps ++ demoLater)) (.array ⟨2, 3, 4⟩) = .array [1, 2, 3] :=
  C126_stable_partial demoSingle (h := .array ⟨2, 3, 4⟩) (List.mem_singleton.mpr rfl)

example : Handle.value (run St.init ([(.add 0 (some 1), 1), (.add 0 (some 2), 2), (.err 0, 0)] ++ [(.add 0 (some 3), 4)])) (.array ⟨1, 2, 2⟩) =
    (.array [1, 2] : Res Nat) :=
  C126_no_copy (by intro a b g h; simp at h) (h := .array ⟨1, 2, 2⟩) (List.mem_singleton.mpr rfl)

end Verif.XError.Heap

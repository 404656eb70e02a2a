import Verif.XStream.Lists
import Verif.XRing.Lemmas
/-! # Every one goroutine operation is a correct component -/
namespace Verif.XStream
open Verif.Go Verif.Conc.Net

variable {α K : Type}

/-- The number of elements below which Go's 64 bit counters do not wrap around. -/
def lim : Nat := 2 ^ 63

/-- Operations that send no more than they receive (but perhaps one slice for an empty stream). -/
def atMost (n : Nat) : Nat := max 1 n

theorem atMost_mono (a b : Nat) (h : a ≤ b) : atMost a ≤ atMost b := by unfold atMost; omega

/-- A specification of a stage with one input and one output. -/
def lift (R : List (Val α) → List (Val α) → List (Ev α K) → Prop) : (Nat → List (Val α)) → (Nat → List (Val α)) → List (Ev α K) → Prop :=
  fun ins outs log => R (ins 0) (outs 0) log

/-! ## Sources -/

/-- Proof only: part of an invariant or simulation; models no code. -/
def sendInv (items : List (Val α)) : SendSt α → Hist (Val α) (Ev α K) → Prop
  | .loop rest, h => h.closed 0 = false ∧ h.outs 0 ++ rest = items ∧ h.log = []
  | .done, h => h.closed 0 = true ∧ h.outs 0 = items ∧ h.log = []

/-- Proof only: part of a measure; models no code. -/
def sendW : SendSt α → Nat
  | .loop rest => rest.length + 1
  | .done => 0

theorem source_fine (items : List (Val α)) (cap : SendSt α → Nat → Nat) :
    Fine lim (Seq.comp ⟨SendSt α, 0, 1, .loop items, cap, SendSt.next⟩) (lift fun _ ys log => ys = items ∧ log = ([] : List (Ev α K)))
      (fun _ => items.length) := by
  refine Seq.fine (Inv := sendInv items) (W := sendW) (c := fun _ => 0) (by simp) (by simp) (by simp [sendInv, Hist.empty]) ?_ ?_
  · intro s h hi
    cases s with
    | done => simp_all [sendInv, SendSt.next, Seq.Ok, lift]
    | loop rest =>
      cases rest <;> simp_all [sendInv, SendSt.next, Seq.Ok, Hist.add, sendW]
  · intro s h hi q hq
    have : q = 0 := by simpa using hq
    subst this
    cases s with
    | done => simp_all [sendInv]
    | loop rest => obtain ⟨_, h2, _⟩ := hi; simp [← h2]

/-! ## Forwarding stages -/

/-- Proof only: part of an invariant or simulation; models no code. -/
def bufferInv : FwdSt α → Hist (Val α) (Ev α K) → Prop
  | .loop, h => h.eof 0 = false ∧ h.closed 0 = false ∧ h.outs 0 = h.ins 0 ∧ h.log = []
  | .send v, h => h.eof 0 = false ∧ h.closed 0 = false ∧ h.outs 0 ++ [v] = h.ins 0 ∧ h.log = []
  | .call _, _ => False
  | .closing, h => h.eof 0 = true ∧ h.closed 0 = false ∧ h.outs 0 = h.ins 0 ∧ h.log = []
  | .done, h => h.eof 0 = true ∧ h.closed 0 = true ∧ h.outs 0 = h.ins 0 ∧ h.log = []

/-- Proof only: part of a measure; models no code. -/
def fwdW : FwdSt α → Nat
  | .loop => 2
  | .send _ => 4
  | .call _ => 3
  | .closing => 1
  | .done => 0

theorem one_port {n m : Nat} {l : Nat → List (Val α)} (h : (l 0).length ≤ atMost m) : ∀ q < 1, (l q).length ≤ atMost m := by
  intro q hq
  have : q = 0 := by omega
  subst this; exact h

theorem buffer_fine (n : Int) : Fine lim (bufferS n : Seq (Val α) (Ev α K)).comp (lift fun xs ys log => ys = xs ∧ log = []) atMost := by
  refine Seq.fine (Inv := bufferInv) (W := fwdW) (c := fun _ => 2) atMost_mono (by simp [bufferS]) (by simp [bufferInv, Hist.empty, bufferS]) ?_ ?_
  · intro s h hi
    cases s <;> simp_all [bufferInv, bufferS, bufferNext, Seq.Ok, lift, Hist.add, fwdW]
  · intro s h hi
    apply one_port (n := n.toNat)
    cases s <;> simp only [bufferInv, bufferS] at hi ⊢ <;> (have hl := congrArg List.length hi.2.2.1; simp [atMost] at hl ⊢; omega)

/-- Proof only: part of an invariant or simulation; models no code. -/
def peekInv : FwdSt α → Hist (Val α) (Ev α K) → Prop
  | .loop, h => h.eof 0 = false ∧ h.closed 0 = false ∧ h.outs 0 = h.ins 0 ∧ h.log = (h.ins 0).map .call
  | .send v, h => h.eof 0 = false ∧ h.closed 0 = false ∧ h.outs 0 ++ [v] = h.ins 0 ∧ h.log ++ [.call v] = (h.ins 0).map .call
  | .call v, h => h.eof 0 = false ∧ h.closed 0 = false ∧ h.outs 0 = h.ins 0 ∧ h.log ++ [.call v] = (h.ins 0).map .call
  | .closing, h => h.eof 0 = true ∧ h.closed 0 = false ∧ h.outs 0 = h.ins 0 ∧ h.log = (h.ins 0).map .call
  | .done, h => h.eof 0 = true ∧ h.closed 0 = true ∧ h.outs 0 = h.ins 0 ∧ h.log = (h.ins 0).map .call

theorem peek_fine : Fine lim (peekS : Seq (Val α) (Ev α K)).comp (lift fun xs ys log => ys = xs ∧ log = xs.map .call) atMost := by
  refine Seq.fine (Inv := peekInv) (W := fwdW) (c := fun _ => 2) atMost_mono (by simp [peekS]) (by simp [peekInv, Hist.empty, peekS]) ?_ ?_
  · intro s h hi
    cases s <;> simp_all [peekInv, peekS, peekNext, Seq.Ok, lift, Hist.add, fwdW]
  · intro s h hi
    apply one_port (n := 0)
    cases s <;> simp only [peekInv, peekS] at hi ⊢ <;> (have hl := congrArg List.length hi.2.2.1; simp [atMost] at hl ⊢; omega)

/-- Proof only: part of an invariant or simulation; models no code. -/
def distinctInv [DecidableEq K] (f : Val α → K) : DistinctSt α K → Hist (Val α) (Ev α K) → Prop
  | .loop u, h => h.eof 0 = false ∧ h.closed 0 = false ∧ h.outs 0 = firstPerKey f (h.ins 0) ∧ (∀ k, k ∈ u ↔ ∃ x ∈ h.ins 0, f x = k) ∧ h.log = []
  | .send v u, h => h.eof 0 = false ∧ h.closed 0 = false ∧ h.outs 0 ++ [v] = firstPerKey f (h.ins 0) ∧
      (∀ k, k ∈ f v :: u ↔ ∃ x ∈ h.ins 0, f x = k) ∧ h.log = []
  | .closing, h => h.eof 0 = true ∧ h.closed 0 = false ∧ h.outs 0 = firstPerKey f (h.ins 0) ∧ h.log = []
  | .done, h => h.eof 0 = true ∧ h.closed 0 = true ∧ h.outs 0 = firstPerKey f (h.ins 0) ∧ h.log = []

/-- Proof only: part of a measure; models no code. -/
def distinctW : DistinctSt α K → Nat
  | .loop _ => 2
  | .send _ _ => 3
  | .closing => 1
  | .done => 0

theorem distinct_fine [DecidableEq K] (f : Val α → K) :
    Fine lim (distinctS f : Seq (Val α) (Ev α K)).comp (lift fun xs ys log => ys = firstPerKey f xs ∧ log = []) atMost := by
  refine Seq.fine (Inv := distinctInv f) (W := distinctW) (c := fun _ => 1) atMost_mono (by simp [distinctS])
    (by simp [distinctInv, Hist.empty, distinctS, firstPerKey]) ?_ ?_
  · intro s h hi
    cases s with
    | loop u =>
      obtain ⟨h1, h2, h3, h4, h5⟩ := hi
      refine ⟨by simp [distinctS], h1, fun v => ⟨fun _ => ?_, ?_⟩, ?_, by simp [distinctW]⟩
      · by_cases e : f v ∈ u
        · have e' := (h4 (f v)).mp e
          simp only [e, if_true]
          refine ⟨h1, h2, by simp only [Hist.add, upd_self]; rw [h3, firstPerKey_snoc, if_pos e'], fun k => ?_, h5⟩
          rw [h4 k]
          simp only [Hist.add, upd_self, List.mem_append, List.mem_singleton]
          constructor
          · rintro ⟨x, hx, hk⟩; exact ⟨x, .inl hx, hk⟩
          · rintro ⟨x, hx | rfl, hk⟩
            · exact ⟨x, hx, hk⟩
            · rw [← hk]; exact e'
        · have e' : ¬ ∃ x ∈ h.ins 0, f x = f v := fun hh => e ((h4 (f v)).mpr hh)
          simp only [e, if_false]
          refine ⟨h1, h2, by simp only [Hist.add, upd_self]; rw [h3, firstPerKey_snoc, if_neg e'], fun k => ?_, h5⟩
          rw [List.mem_cons, h4 k]
          simp only [Hist.add, upd_self, List.mem_append, List.mem_singleton]
          constructor
          · rintro (rfl | ⟨x, hx, hk⟩)
            · exact ⟨v, .inr rfl, rfl⟩
            · exact ⟨x, .inl hx, hk⟩
          · rintro ⟨x, hx | rfl, hk⟩
            · exact .inr ⟨x, hx, hk⟩
            · exact .inl hk.symm
      · by_cases e : f v ∈ u <;> simp [e, distinctW]
      · simp_all [distinctInv, Hist.add]
    | send v u => simp_all [distinctInv, distinctS, distinctNext, Seq.Ok, Hist.add, distinctW]
    | closing => simp_all [distinctInv, distinctS, distinctNext, Seq.Ok, Hist.add, distinctW]
    | done => simp_all [distinctInv, distinctS, distinctNext, Seq.Ok, lift]
  · intro s h hi
    apply one_port (n := 0)
    have := firstPerKey_length f (h.ins 0)
    cases s <;> simp only [distinctInv, distinctS] at hi ⊢ <;> (have hl := congrArg List.length hi.2.2.1; simp [atMost] at hl ⊢; omega)

/-- Proof only: part of an invariant or simulation; models no code. -/
def skipInv (n : Int) : SkipSt α → Hist (Val α) (Ev α K) → Prop
  | .loop i, h => h.eof 0 = false ∧ h.closed 0 = false ∧ h.outs 0 = (h.ins 0).drop n.toNat ∧ i = (h.ins 0).length ∧ h.log = []
  | .send v i, h => h.eof 0 = false ∧ h.closed 0 = false ∧ h.outs 0 ++ [v] = (h.ins 0).drop n.toNat ∧ i + 1 = (h.ins 0).length ∧
      (h.ins 0).length < lim ∧ h.log = []
  | .closing, h => h.eof 0 = true ∧ h.closed 0 = false ∧ h.outs 0 = (h.ins 0).drop n.toNat ∧ h.log = []
  | .done, h => h.eof 0 = true ∧ h.closed 0 = true ∧ h.outs 0 = (h.ins 0).drop n.toNat ∧ h.log = []

/-- Proof only: part of a measure; models no code. -/
def skipW : SkipSt α → Nat
  | .loop _ => 2
  | .send _ _ => 3
  | .closing => 1
  | .done => 0

theorem wrap_small {i : Int} (h0 : -(2 ^ 63) ≤ i) (h : i < 2 ^ 63) : wrap64 i = i := by unfold wrap64; omega

theorem skip_fine {n : Int} (hn : 0 < n) : Fine lim (skipS n : Seq (Val α) (Ev α K)).comp (lift fun xs ys log => ys = xs.drop n.toNat ∧ log = []) atMost := by
  refine Seq.fine (Inv := skipInv n) (W := skipW) (c := fun _ => 1) atMost_mono (by simp [skipS]) (by simp [skipInv, Hist.empty, skipS]) ?_ ?_
  · intro s h hi
    cases s with
    | loop i =>
      obtain ⟨h1, h2, h3, h4, h5⟩ := hi
      refine ⟨by simp [skipS], h1, fun v => ⟨fun hl => ?_, ?_⟩, ?_, by simp [skipW]⟩
      · unfold lim at hl
        by_cases e : i ≥ n
        · simp only [e, if_true]
          refine ⟨h1, h2, ?_, ?_, ?_, h5⟩ <;> simp only [Hist.add, upd_self]
          · rw [h3, List.drop_append_of_le_length (by omega)]
          · simp; omega
          · simpa [lim] using hl
        · simp only [e, if_false]
          refine ⟨h1, h2, ?_, ?_, h5⟩ <;> simp only [Hist.add, upd_self]
          · rw [h3, List.drop_of_length_le (by omega), List.drop_of_length_le (by simp; omega)]
          · rw [wrap_small (by omega) (by omega)]; simp; omega
      · by_cases e : i ≥ n <;> simp [e, skipW]
      · simp_all [skipInv, Hist.add]
    | send v i =>
      obtain ⟨h1, h2, h3, h4, h5, h6⟩ := hi
      unfold lim at h5
      refine ⟨by simp [skipS], h2, ⟨h1, h2, by simpa [Hist.add] using h3, ?_, h6⟩, by simp [skipW]⟩
      rw [wrap_small (by omega) (by omega)]; exact h4
    | closing => simp_all [skipInv, skipS, skipNext, Seq.Ok, Hist.add, skipW]
    | done => simp_all [skipInv, skipS, skipNext, Seq.Ok, lift]
  · intro s h hi
    apply one_port (n := 0)
    cases s <;> simp only [skipInv, skipS] at hi ⊢ <;> (have hl := congrArg List.length hi.2.2.1; simp [atMost] at hl ⊢; omega)

/-- Proof only: part of an invariant or simulation; models no code. -/
def limitInv (n : Int) : LimitSt α → Hist (Val α) (Ev α K) → Prop
  | .loop size, h => h.eof 0 = false ∧ h.closed 0 = decide (size ≤ 0) ∧ h.outs 0 = (h.ins 0).take n.toNat ∧ size = n - (h.ins 0).length ∧ h.log = []
  | .send v size, h => h.eof 0 = false ∧ h.closed 0 = false ∧ h.outs 0 ++ [v] = (h.ins 0).take n.toNat ∧ 0 < size ∧
      size - 1 = n - (h.ins 0).length ∧ (h.ins 0).length < lim ∧ h.log = []
  | .dec size, h => h.eof 0 = false ∧ h.closed 0 = decide (size ≤ 0) ∧ h.outs 0 = (h.ins 0).take n.toNat ∧
      size - 1 = n - (h.ins 0).length ∧ (h.ins 0).length < lim ∧ h.log = []
  | .closing size, h => h.eof 0 = false ∧ h.closed 0 = false ∧ h.outs 0 = (h.ins 0).take n.toNat ∧ size = 0 ∧ size = n - (h.ins 0).length ∧ h.log = []
  | .fin size, h => h.eof 0 = true ∧ h.closed 0 = decide (size ≤ 0) ∧ h.outs 0 = (h.ins 0).take n.toNat ∧ h.log = []
  | .closeEnd, h => h.eof 0 = true ∧ h.closed 0 = false ∧ h.outs 0 = (h.ins 0).take n.toNat ∧ h.log = []
  | .done, h => h.eof 0 = true ∧ h.closed 0 = true ∧ h.outs 0 = (h.ins 0).take n.toNat ∧ h.log = []

/-- Proof only: part of a measure; models no code. -/
def limitW : LimitSt α → Nat
  | .loop _ => 3
  | .send _ _ => 6
  | .dec _ => 5
  | .closing _ => 4
  | .fin _ => 2
  | .closeEnd => 1
  | .done => 0

theorem limit_fine {n : Int} (hn : 0 < n) (hn2 : n < 2 ^ 63) :
    Fine lim (limitS n : Seq (Val α) (Ev α K)).comp (lift fun xs ys log => ys = xs.take n.toNat ∧ log = []) atMost := by
  refine Seq.fine (Inv := limitInv n) (W := limitW) (c := fun _ => 3) atMost_mono (by simp [limitS])
    (by simp [limitInv, Hist.empty, limitS]; exact hn) ?_ ?_
  · intro s h hi
    cases s with
    | loop size =>
      obtain ⟨h1, h2, h3, h4, h5⟩ := hi
      refine ⟨by simp [limitS], h1, fun v => ⟨fun hl => ?_, ?_⟩, ?_, by simp [limitW]⟩
      · by_cases e : size > 0
        · simp only [e, if_true]
          refine ⟨h1, by simp [Hist.add, h2]; exact e, ?_, e, ?_, ?_, h5⟩ <;> simp only [Hist.add, upd_self]
          · rw [h3, List.take_of_length_le (by omega), List.take_of_length_le (by simp; omega)]
          · simp; omega
          · simpa [lim] using hl
        · simp only [e, if_false]
          refine ⟨h1, h2, ?_, ?_, ?_, h5⟩ <;> simp only [Hist.add, upd_self]
          · rw [h3, List.take_append_of_le_length (by omega)]
          · simp; omega
          · simpa [lim] using hl
      · by_cases e : size > 0 <;> simp [e, limitW]
      · simp_all [limitInv, Hist.add]
    | send v size =>
      obtain ⟨h1, h2, h3, h4, h5, h6, h7⟩ := hi
      refine ⟨by simp [limitS], h2, ⟨h1, ?_, by simpa [Hist.add] using h3, h5, h6, h7⟩, by simp [limitW]⟩
      simp only [Hist.add, h2]
      rw [eq_comm, decide_eq_false_iff_not]; omega
    | dec size =>
      obtain ⟨h1, h2, h3, h4, h5, h6⟩ := hi
      unfold lim at h5
      have hw : wrap64 (size - 1) = size - 1 := wrap_small (by omega) (by omega)
      refine ⟨?_, ?_⟩ <;> rw [hw]
      · by_cases e : size - 1 = 0
        · rw [if_pos e]
          refine ⟨h1, ?_, h3, e, h4, h6⟩
          rw [h2, decide_eq_false_iff_not]; omega
        · rw [if_neg e]
          refine ⟨h1, ?_, h3, h4, h6⟩
          rw [h2]
          by_cases e2 : size ≤ 0
          · simp [e2]; omega
          · simp [e2]; omega
      · by_cases e : size - 1 = 0 <;> simp [e, limitW]
    | closing size =>
      obtain ⟨h1, h2, h3, h4, h5, h6⟩ := hi
      refine ⟨by simp [limitS], h2, ⟨h1, ?_, h3, h5, h6⟩, by simp [limitW]⟩
      simp [Hist.add, h4]
    | fin size =>
      obtain ⟨h1, h2, h3, h4⟩ := hi
      refine ⟨?_, ?_⟩
      · by_cases e : size > 0
        · rw [if_pos e]
          refine ⟨h1, ?_, h3, h4⟩
          rw [h2, decide_eq_false_iff_not]; omega
        · rw [if_neg e]
          refine ⟨h1, ?_, h3, h4⟩
          rw [h2, decide_eq_true_eq]; omega
      · by_cases e : size > 0 <;> simp [e, limitW]
    | closeEnd => simp_all [limitInv, limitS, limitNext, Seq.Ok, Hist.add, limitW]
    | done => simp_all [limitInv, limitS, limitNext, Seq.Ok, lift]
  · intro s h hi
    apply one_port (n := 0)
    cases s <;> simp only [limitInv, limitS] at hi ⊢ <;> (have hl := congrArg List.length hi.2.2.1; simp [atMost] at hl ⊢; omega)

/-- Proof only: part of an invariant or simulation; models no code. -/
def drainInv : DrainSt → Hist (Val α) (Ev α K) → Prop
  | .close, h => h.eof 0 = false ∧ h.closed 0 = false ∧ h.outs 0 = [] ∧ h.log = []
  | .loop, h => h.eof 0 = false ∧ h.closed 0 = true ∧ h.outs 0 = [] ∧ h.log = []
  | .done, h => h.eof 0 = true ∧ h.closed 0 = true ∧ h.outs 0 = [] ∧ h.log = []

/-- Proof only: part of a measure; models no code. -/
def drainW : DrainSt → Nat
  | .close => 2
  | .loop => 1
  | .done => 0

theorem empty_fine : Fine lim (emptyS : Seq (Val α) (Ev α K)).comp (lift fun _ ys log => ys = [] ∧ log = []) atMost := by
  refine Seq.fine (Inv := drainInv) (W := drainW) (c := fun _ => 0) atMost_mono (by simp [emptyS]) (by simp [drainInv, Hist.empty, emptyS]) ?_ ?_
  · intro s h hi
    cases s <;> simp_all [drainInv, emptyS, drainNext, Seq.Ok, lift, Hist.add, drainW]
  · intro s h hi
    apply one_port (n := 0)
    cases s <;> simp_all [drainInv, emptyS]

end Verif.XStream

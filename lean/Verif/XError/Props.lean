import Verif.XError.Model
import Verif.XString.JoinerProps
/-! # Property theorems for xerror (C03) -/
namespace Verif.XError
open Verif.Go Verif.XString.Joiner

variable {E : Type}

/-- Specification: the non-nil errors in the order they were added. -/
def nonNil (es : List (Option E)) : List E := es.filterMap id

/-- Specification of joining messages by single newlines. -/
def lines : List Bytes → Bytes
  | [] => []
  | [x] => x
  | x :: xs => x ++ [10] ++ lines xs

theorem addAll_errs (be : BatchError E) (es : List (Option E)) : (addAll be es).errs = be.errs ++ nonNil es := by
  induction es generalizing be with
  | nil => simp [addAll, nonNil]
  | cons e es ih =>
    cases e with
    | none => simp [addAll, ih, nonNil, BatchError.add]
    | some e => simp [addAll, ih, nonNil, BatchError.add]

/-- C03: after any sequence of Add calls, `Err` is nil iff no non-nil error was added, the very error if there was
exactly one, and otherwise the collection of exactly the non-nil errors in order. -/
theorem C03_err (es : List (Option E)) :
    (addAll BatchError.zero es).err =
      match nonNil es with
      | [] => .nil
      | [e] => .one e
      | l => .array l := by
  unfold BatchError.err
  rw [addAll_errs]
  simp only [BatchError.zero, List.nil_append]
  rcases nonNil es with _ | ⟨a, _ | ⟨b, c⟩⟩ <;> rfl

example : (addAll BatchError.zero [none, some 1, none, some 2, some 1]).err = Res.array [1, 2, 1] ∧
    (addAll BatchError.zero [none, some 4]).err = Res.one 4 := ⟨C03_err _, C03_err _⟩

/-- C03: `Err` is nil iff every added error was nil; `NotNil` is its negation. -/
theorem C03_nil_iff (es : List (Option E)) :
    ((addAll BatchError.zero es).err = .nil ↔ ∀ e ∈ es, e = none) ∧
    ((addAll BatchError.zero es).notNil = true ↔ ∃ e, some e ∈ es) := by
  have h : nonNil es = [] ↔ ∀ e ∈ es, e = none := by
    unfold nonNil
    rw [List.filterMap_eq_nil_iff]
    simp
  constructor
  · rw [C03_err, ← h]
    match nonNil es with
    | [] => simp
    | [e] => simp
    | _ :: _ :: _ => simp
  · unfold BatchError.notNil
    rw [addAll_errs]
    simp only [BatchError.zero, List.nil_append, gt_iff_lt, decide_eq_true_eq]
    rw [List.length_pos_iff_exists_mem]
    constructor
    · rintro ⟨e, he⟩; exact ⟨e, by simpa [nonNil] using he⟩
    · rintro ⟨e, he⟩; exact ⟨e, by simpa [nonNil] using he⟩

example : (addAll BatchError.zero [(none : Option Nat), none]).err = .nil ∧ (addAll BatchError.zero [none, some 4]).notNil = true :=
  ⟨(C03_nil_iff _).1.mpr (by decide), (C03_nil_iff _).2.mpr ⟨4, by decide⟩⟩

theorem errorLoop_eq (g : Growth) (msg : E → Bytes) (es : List E) (j : Joiner) :
    run g j (es.map (fun e => Call.writeString (msg e))) = some (errorLoop g msg j es) := by
  induction es generalizing j with
  | nil => rfl
  | cons e es ih => simp only [List.map_cons, run, step, Option.bind_some, ih, errorLoop]

/-- C03: the message of the collection is the messages joined by single newlines. -/
theorem C03_message (g : Growth) (msg : E → Bytes) (es : List (Option E)) :
    (addAll BatchError.zero es).err.message g msg =
      if nonNil es = [] then none else some (lines ((nonNil es).map msg)) := by
  rw [C03_err]
  have key : ∀ l : List E, errorArrayError g msg l = lines (l.map msg) := by
    intro l
    unfold errorArrayError
    have hr := errorLoop_eq g msg l (newJoiner [.step [10]])
    have hp : Plain (l.map (fun e => Call.writeString (msg e))) := by
      cases l with
      | nil => trivial
      | cons x l =>
        intro a b h
        exfalso
        have : Call.reset ∈ (x :: l).map (fun e => Call.writeString (msg e)) := by
          rw [List.map_cons, h]; simp
        simp at this
    have := C66_joined_partial g _ _ hp _ hr
    simp only [List.foldl_cons, List.foldl_nil, applyOpt, List.nil_append, List.append_nil] at this
    rw [this]
    have hi : ∀ (l : List E) (acc : List Bytes), itemsFrom acc (l.map (fun e => Call.writeString (msg e))) = acc ++ l.map msg := by
      intro l
      induction l with
      | nil => intro acc; simp [itemsFrom]
      | cons x l ih => intro acc; simp [itemsFrom, item, ih]
    unfold expectedItems
    rw [hi]
    simp only [List.nil_append]
    generalize l.map msg = ms
    induction ms with
    | nil => rfl
    | cons m ms ih =>
      cases ms with
      | nil => rfl
      | cons m' ms => simp only [joined, lines] at ih ⊢; rw [ih]
  match nonNil es with
  | [] => simp [Res.message]
  | [e] => simp [Res.message, lines]
  | _ :: _ :: _ => simp only [Res.message, key]; simp

example : (addAll BatchError.zero [none, some 1, none, some 2, some 1]).err = Res.array [1, 2, 1] := by decide
example : Res.message exact (fun (n : Nat) => [UInt8.ofNat n]) (addAll BatchError.zero [none, some 65, some 66]).err =
    some [65, 10, 66] := by decide

end Verif.XError

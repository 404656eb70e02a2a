import Verif.XTask.Retry
import Verif.XError.Props
/-! # Property theorems for DoWithRetry (C04, C05) -/
namespace Verif.XTask.Retry
open Verif.Go Verif.XError

variable {E P : Type}

/-- Specification: the errors of the first `n` calls, when all of them fail. -/
def AllFail (fn : Nat → Attempt E P) (n : Nat) (es : List E) : Prop :=
  es.length = n ∧ ∀ k (h : k < n), ∃ h' : k < es.length, fn k = .err es[k]

/-- Specification: what a list of errors is reported as. -/
def report : List E → Res E
  | [] => .nil
  | [e] => .one e
  | es => .array es

/-- The loop started at call number `k` after `k` failures. -/
theorem loop_spec (fn : Nat → Attempt E P) (times : Int) (ht : times < 2 ^ 63 - 1) :
    ∀ (f k : Nat) (es : List E), AllFail fn k es → (k : Int) ≤ times + 1 ∨ k = 0 → (times + 2 : Int) ≤ k + f → 0 < f →
    (∃ m, k ≤ m ∧ (m : Int) ≤ times ∧ (∃ es', AllFail fn m es') ∧ fn m = .ok ∧
        loop fn times f k k ⟨es⟩ = .returned .nil (m + 1)) ∨
    (∃ m p, k ≤ m ∧ (m : Int) ≤ times ∧ (∃ es', AllFail fn m es') ∧ fn m = .panic p ∧
        loop fn times f k k ⟨es⟩ = .panicked p (m + 1)) ∨
    (∃ es', (k : Int) ≤ max 0 (times + 1) ∧ AllFail fn (times + 1).toNat es' ∧
        loop fn times f k k ⟨es⟩ = .returned (report es') (times + 1).toNat) := by
  intro f
  induction f with
  | zero => intro k es _ _ _ h; omega
  | succ f ih =>
    intro k es hes hk hf _
    unfold loop
    by_cases hle : (k : Int) ≤ times
    · rw [if_pos hle]
      cases hfn : fn k with
      | ok => left; exact ⟨k, by omega, hle, ⟨es, hes⟩, hfn, rfl⟩
      | panic p => right; left; exact ⟨k, p, by omega, hle, ⟨es, hes⟩, hfn, rfl⟩
      | err e =>
        have hw : wrap64 ((k : Int) + 1) = ((k + 1 : Nat) : Int) := by
          rw [wrap64_of_isInt64 (by unfold IsInt64; omega)]; omega
        have hes' : AllFail fn (k + 1) (es ++ [e]) := by
          refine ⟨by simp [hes.1], ?_⟩
          intro j hj
          have hl : es.length = k := hes.1
          refine ⟨by simp; omega, ?_⟩
          by_cases hjk : j < k
          · obtain ⟨h', e'⟩ := hes.2 j hjk
            rw [List.getElem_append_left (by omega)]; exact e'
          · have : j = k := by omega
            subst this
            rw [List.getElem_append_right (by omega)]
            simpa [hl] using hfn
        simp only [BatchError.add, hw]
        have := ih (k + 1) (es ++ [e]) hes' (by omega) (by omega) (by omega)
        rcases this with ⟨m, h1, h⟩ | ⟨m, p, h1, h⟩ | ⟨es', h1, h⟩
        · left; exact ⟨m, by omega, h⟩
        · right; left; exact ⟨m, p, by omega, h⟩
        · right; right; exact ⟨es', by omega, h⟩
    · rw [if_neg hle]
      right; right
      have hk' : (times + 1).toNat = k := by omega
      refine ⟨es, by omega, by rw [hk']; exact hes, ?_⟩
      rw [hk']
      unfold BatchError.err report
      rcases es with _ | ⟨a, _ | ⟨b, c⟩⟩ <;> rfl

theorem allFail_inj {fn : Nat → Attempt E P} {n : Nat} {a b : List E} (ha : AllFail fn n a) (hb : AllFail fn n b) : a = b := by
  apply List.ext_getElem (by rw [ha.1, hb.1])
  intro i h1 h2
  obtain ⟨_, e1⟩ := ha.2 i (by rw [← ha.1]; exact h1)
  obtain ⟨_, e2⟩ := hb.2 i (by rw [← ha.1]; exact h1)
  rw [e1] at e2
  exact Attempt.err.inj e2

/-- C04, C05: with `times` the last option given (default 3), `times < 2^63-1`, and enough steps, `DoWithRetry`
stops: with nil after exactly the first success, with fn's own panic at the first panic, or with all errors of the
`times+1` failing attempts in order. -/
theorem C04_C05_doWithRetry (fn : Nat → Attempt E P) (opts : List Int) (ht : optTimes opts < 2 ^ 63 - 1) (fuel : Nat)
    (hf : optTimes opts + 2 ≤ fuel ∧ 1 ≤ fuel) :
    (∃ m : Nat, (m : Int) ≤ optTimes opts ∧ (∃ es, AllFail fn m es) ∧ fn m = .ok ∧
        doWithRetry fn opts fuel = .returned .nil (m + 1)) ∨
    (∃ (m : Nat) (p : P), (m : Int) ≤ optTimes opts ∧ (∃ es, AllFail fn m es) ∧ fn m = .panic p ∧
        doWithRetry fn opts fuel = .panicked p (m + 1)) ∨
    (∃ es, AllFail fn (optTimes opts + 1).toNat es ∧
        doWithRetry fn opts fuel = .returned (report es) (optTimes opts + 1).toNat) := by
  have h := loop_spec fn (optTimes opts) ht fuel 0 [] ⟨rfl, by omega⟩ (by omega) (by omega) (by omega)
  unfold doWithRetry BatchError.zero
  rcases h with ⟨m, _, h⟩ | ⟨m, p, _, h⟩ | ⟨es', _, h⟩
  · left; exact ⟨m, h⟩
  · right; left; exact ⟨m, p, h⟩
  · right; right; exact ⟨es', h⟩

/-- Concrete cases: the third call succeeds; all calls fail; a panic; a negative number of retries. -/
example : optTimes [7, 4] < 2 ^ 63 - 1 ∧ optTimes [7, 4] + 2 ≤ (6 : Nat) ∧
    doWithRetry (P := Unit) (fun k => if k = 2 then .ok else .err k) [7, 4] 6 = .returned .nil 3 := by decide
example : doWithRetry (P := Unit) (fun k => .err k) [1] 3 = .returned (.array [0, 1]) 2 := by decide
example : doWithRetry (fun k => if k = 1 then .panic "p" else .err k) [] 5 = .panicked "p" 2 := by decide
example : doWithRetry (P := Unit) (fun k => .err k) [-1] 1 = .returned .nil 0 := by decide

/-- C04: the last option wins; the default is 3. -/
theorem C04_options (opts : List Int) (t : Int) : optTimes [] = 3 ∧ optTimes (opts ++ [t]) = t := by
  constructor
  · rfl
  · simp [optTimes]

example : optTimes [7, 4] = 4 := (C04_options [7] 4).2

/-- C04: for a function that never panics, the number of calls is the index of the first success within `times+1`
attempts, else `times+1` (0 for negative `times`). -/
theorem C04_calls (fn : Nat → Attempt E P) (hnp : ∀ k p, fn k ≠ .panic p) (opts : List Int)
    (ht : optTimes opts < 2 ^ 63 - 1) (fuel : Nat) (hf : optTimes opts + 2 ≤ fuel ∧ 1 ≤ fuel) :
    ∃ r n, doWithRetry fn opts fuel = .returned r n ∧
      ((∃ m : Nat, n = m + 1 ∧ (m : Int) ≤ optTimes opts ∧ fn m = .ok ∧ ∀ k < m, fn k ≠ .ok) ∨
       (n = (optTimes opts + 1).toNat ∧ ∀ k < n, fn k ≠ .ok)) := by
  have hnok : ∀ m es, AllFail fn m es → ∀ k < m, fn k ≠ .ok := by
    intro m es h k hk
    obtain ⟨_, e⟩ := h.2 k hk
    rw [e]; simp
  rcases C04_C05_doWithRetry fn opts ht fuel hf with ⟨m, h1, ⟨es, h2⟩, h3, h4⟩ | ⟨m, p, _, _, h3, _⟩ | ⟨es, h1, h2⟩
  · exact ⟨_, _, h4, Or.inl ⟨m, rfl, h1, h3, hnok m es h2⟩⟩
  · exact absurd h3 (hnp m p)
  · exact ⟨_, _, h2, Or.inr ⟨rfl, hnok _ es h1⟩⟩

example : ∃ r n, doWithRetry (E := Nat) (P := Unit) (fun k => if k = 2 then .ok else .err k) [4] 6 = .returned r n ∧
    ((∃ m : Nat, n = m + 1 ∧ (m : Int) ≤ 4 ∧ (if m = 2 then Attempt.ok else .err m : Attempt Nat Unit) = .ok ∧
        ∀ k < m, (if k = 2 then Attempt.ok else .err k : Attempt Nat Unit) ≠ .ok) ∨
      (n = 5 ∧ ∀ k < n, (if k = 2 then Attempt.ok else .err k : Attempt Nat Unit) ≠ .ok)) :=
  C04_calls _ (by intro k p; split <;> simp) [4] (by decide) 6 (by decide)

/-- C05: for a function that never panics and `times ≥ 0`, the result is nil iff one of the first `times+1` attempts
succeeds; otherwise it reports all the attempts' errors in order. -/
theorem C05_result (fn : Nat → Attempt E P) (hnp : ∀ k p, fn k ≠ .panic p) (opts : List Int)
    (h0 : 0 ≤ optTimes opts) (ht : optTimes opts < 2 ^ 63 - 1) (fuel : Nat) (hf : optTimes opts + 2 ≤ fuel) :
    ∃ r n, doWithRetry fn opts fuel = .returned r n ∧
      (r = .nil ↔ ∃ m : Nat, (m : Int) ≤ optTimes opts ∧ fn m = .ok) ∧
      (∀ es : List E, (es.length : Int) = optTimes opts + 1 → (∀ k (h : k < es.length), fn k = .err es[k]) → r = report es) := by
  have hnok : ∀ m es, AllFail fn m es → ∀ k < m, fn k ≠ .ok := by
    intro m es h k hk
    obtain ⟨_, e⟩ := h.2 k hk
    rw [e]; simp
  rcases C04_C05_doWithRetry fn opts ht fuel ⟨hf, by omega⟩ with ⟨m, h1, ⟨es, h2⟩, h3, h4⟩ | ⟨m, p, _, _, h3, _⟩ | ⟨es, h1, h2⟩
  · refine ⟨_, _, h4, ⟨fun _ => ⟨m, h1, h3⟩, fun _ => rfl⟩, ?_⟩
    intro es' hl hes
    have := hes m (by omega)
    rw [h3] at this
    cases this
  · exact absurd h3 (hnp m p)
  · refine ⟨_, _, h2, ?_, ?_⟩
    · have hne : report es ≠ .nil := by
        have hl : es.length = (optTimes opts + 1).toNat := h1.1
        rcases es with _ | ⟨a, _ | ⟨b, c⟩⟩
        · simp at hl; omega
        · simp [report]
        · simp [report]
      constructor
      · intro h; exact absurd h hne
      · rintro ⟨m, hm, hok⟩
        exact absurd hok (hnok _ es h1 m (by omega))
    · intro es' hl hes
      have : es' = es := allFail_inj ⟨by omega, fun k hk => ⟨by omega, hes k (by omega)⟩⟩ h1
      rw [this]

/-- All three attempts fail: the result reports the three errors in order. -/
example : ∃ r n, doWithRetry (E := Nat) (P := Unit) (fun k => .err (k + 10)) [2] 4 = .returned r n ∧ r = .array [10, 11, 12] := by
  obtain ⟨r, n, h1, _, h2⟩ := C05_result (E := Nat) (P := Unit) (fun k => .err (k + 10)) (by simp) [2] (by decide) (by decide) 4 (by decide)
  exact ⟨r, n, h1, h2 [10, 11, 12] (by decide) (by decide)⟩

/-- C04 as stated is false at the very end of the int range: with `times = MaxInt64` and a function that always fails
the counter wraps around and the loop never ends. -/
theorem C04_maxint_refuted (fn : Nat → Attempt E P) (hall : ∀ k, ∃ e, fn k = .err e) (fuel : Nat) :
    doWithRetry fn [2 ^ 63 - 1] fuel = .running fuel := by
  have key : ∀ (f k : Nat) (i : Int) (be : BatchError E), i ≤ 2 ^ 63 - 1 →
      loop fn (2 ^ 63 - 1) f i k be = .running (k + f) := by
    intro f
    induction f with
    | zero => intro k i be _; rfl
    | succ f ih =>
      intro k i be hi
      unfold loop
      rw [if_pos hi]
      obtain ⟨e, he⟩ := hall k
      rw [he]
      simp only
      rw [ih (k + 1) _ _ (by have := wrap64_isInt64 (i + 1); unfold IsInt64 at this; omega)]
      congr 1; omega
  unfold doWithRetry
  have := key fuel 0 0 BatchError.zero (by omega)
  rw [Nat.zero_add] at this
  exact this

example : doWithRetry (E := Nat) (P := Unit) (fun k => .err k) [2 ^ 63 - 1] 1000 = .running 1000 := C04_maxint_refuted _ (fun k => ⟨k, rfl⟩) 1000

/-- C04, C05 for `times = MaxInt64`: the first success ends the loop, however many attempts it takes; `C04_maxint_refuted` is the other case. -/
theorem C05_maxint (fn : Nat → Attempt E P) (opts : List Int) (ht : optTimes opts = 2 ^ 63 - 1) (m : Nat) (hok : fn m = .ok)
    (hfail : ∀ k < m, ∃ e, fn k = .err e) (fuel : Nat) (hf : m < fuel) : doWithRetry fn opts fuel = .returned .nil (m + 1) := by
  have key : ∀ (f k : Nat) (i : Int) (be : BatchError E), i ≤ 2 ^ 63 - 1 → k ≤ m → m < k + f →
      loop fn (2 ^ 63 - 1) f i k be = .returned .nil (m + 1) := by
    intro f
    induction f with
    | zero => intro k i be _ _ _; omega
    | succ f ih =>
      intro k i be hi hk hf
      unfold loop
      rw [if_pos hi]
      by_cases e : k = m
      · rw [e, hok]
      · obtain ⟨x, hx⟩ := hfail k (by omega)
        rw [hx]
        exact ih (k + 1) _ _ (by have := wrap64_isInt64 (i + 1); unfold IsInt64 at this; omega) (by omega) (by omega)
  unfold doWithRetry
  rw [ht]
  exact key fuel 0 0 _ (by omega) (by omega) (by omega)

example : doWithRetry (E := Nat) (P := Unit) (fun k => if k = 5 then .ok else .err k) [2 ^ 63 - 1] 100 = .returned .nil 6 :=
  C05_maxint _ _ rfl 5 rfl (fun k hk => ⟨k, by simp [show k ≠ 5 by omega]⟩) 100 (by omega)

end Verif.XTask.Retry

import Verif.XWorker.BothJam
/-!
# The models of C125 and C144 are parts of the model of C145

An execution in which only the functions `run` call `Run` (`Nest.lean`), or only the `deferFunc`s (`DeferNest.lean`), is an execution of `Both.lean` in
which the other function returns at once.
-/
namespace Verif.XWorker
open Verif.Go Verif.XTask

variable {E V : Type}

/-! ## Specification -/

/-- The code of `Nest.lean` as code of `Both.lean`: the function that calls `Run` is the part `p`, the other one returns. -/
def Code.body (p : Part) : Code → Body
  | .ret => .ret
  | .run f k => match p with
    | .run => .run (f.body p) .ret (k.body p)
    | .deferFunc => .run .ret (f.body p) (k.body p)
  | .wait k => .wait (k.body p)

/-- The state of `Nest.lean` as a state of `Both.lean`. -/
def Nest.both (p : Part) (n : Nest E V) : Both E V where
  w := n.w
  fn i s := if s = p then (n.fn i).body p else .ret
  code i s := if s = p then (n.code i).body p else .ret
  kids i s := if s = p then n.kids i else []

/-! ## Proofs -/

theorem both_start (p : Part) (n : Nest E V) (f : Code) (ctx : Option E) :
    (n.start f ctx).both p = match p with | .run => (n.both p).start (f.body p) .ret ctx | .deferFunc => (n.both p).start .ret (f.body p) ctx := by
  cases p <;>
  · simp only [Nest.both, Nest.start, Both.start, Both.mk.injEq, true_and]
    refine ⟨?_, ?_, ?_⟩ <;>
    · funext i s
      rw [start_at]
      by_cases e : i = n.w.jobs.length <;> cases s <;> simp [upd, e]

theorem both_inRun {p : Part} {n : Nest E V} {i : Nat} (h : n.inRun i = false) (s : Part) : ¬ (n.both p).inRun i s := by
  rintro ⟨j, l, hk, ctx, b, hj⟩
  simp only [Nest.both] at hk
  split at hk
  · have hp : n.pending j = true := pending_iff.mpr ⟨ctx, b, hj⟩
    simp only [Nest.inRun, hk] at h
    rw [hp] at h; simp at h
  · simp at hk

theorem both_other {p s : Part} {n : Nest E V} {i : Nat} (h : s ≠ p) : ¬ (n.both p).inRun i s := by
  rintro ⟨j, l, hk, _⟩
  simp [Nest.both, h] at hk

theorem both_run (p : Part) (n : Nest E V) (i : Nat) (k : Code) : ({ n with code := upd n.code i k, kids := upd n.kids i (n.w.jobs.length :: n.kids i) } : Nest E V).both p
    = { n.both p with code := upd2 (n.both p).code i p (k.body p), kids := upd2 (n.both p).kids i p ((n.both p).w.jobs.length :: (n.both p).kids i p) } := by
  simp only [Nest.both, Both.mk.injEq, true_and]
  refine ⟨?_, ?_⟩ <;>
  · funext x s
    by_cases e : x = i <;> by_cases e' : s = p <;> simp [upd, upd2, e, e']

theorem both_wait (p : Part) (n : Nest E V) (i : Nat) (k : Code) :
    ({ n with code := upd n.code i k } : Nest E V).both p = { n.both p with code := upd2 (n.both p).code i p (k.body p) } := by
  simp only [Nest.both, Both.mk.injEq, true_and, and_true]
  funext x s
  by_cases e : x = i <;> by_cases e' : s = p <;> simp [upd, upd2, e, e']

theorem both_init (p : Part) (w : Worker E V) : (⟨w, fun _ => .ret, fun _ => .ret, fun _ => []⟩ : Nest E V).both p = ⟨w, fun _ _ => .ret, fun _ _ => .ret, fun _ _ => []⟩ := by
  simp [Nest.both, Code.body]

theorem both_cancels (p : Part) {n n' : Nest E V} (h : Cancels n n') : CancelsB (n.both p) (n'.both p) := by
  cases h with
  | pending i b e hc hj => exact .pending (n.both p) i b e hc hj
  | accepted i ctx0 b d ph m e hc hj hx => exact .accepted (n.both p) i ctx0 b d ph m e hc hj hx

/-- What a function does, in both models. -/
theorem both_call (p : Part) {n : Nest E V} {i : Nat} {f k : Code} (ctx : Option E) (hc : n.w.crashed = false) (ha : (n.both p).active i p)
    (hn : n.inRun i = false) (hk : n.code i = .run f k) :
    InnerB (n.both p) (({ n with code := upd n.code i k, kids := upd n.kids i (n.w.jobs.length :: n.kids i) }.start f ctx).both p) := by
  rw [both_start, both_run]
  cases p with
  | run => exact .run (n.both .run) i .run _ _ _ ctx hc ha (both_inRun hn _) (by simp [Nest.both, hk, Code.body])
  | deferFunc => exact .run (n.both .deferFunc) i .deferFunc _ _ _ ctx hc ha (both_inRun hn _) (by simp [Nest.both, hk, Code.body])

theorem both_waits (p : Part) {n : Nest E V} {i : Nat} {k : Code} (hc : n.w.crashed = false) (ha : (n.both p).active i p) (hn : n.inRun i = false)
    (hk : n.code i = .wait k) (hd : ∀ j ∈ n.kids i, n.deferred j = true) : InnerB (n.both p) (({ n with code := upd n.code i k } : Nest E V).both p) := by
  rw [both_wait]
  exact .wait (n.both p) i p _ hc ha (both_inRun hn _) (by simp [Nest.both, hk, Code.body]) fun j hj => deferred_iff.mp (hd j (by simpa [Nest.both] using hj))

/-! ## Theorems -/

/-- **C145.** The executions of C125 are executions of C145 in which every `deferFunc` returns at once. -/
theorem C145_has_C125 {size : Int} {n : Nest E V} (h : NReach size n) : BReach size (n.both .run) := by
  induction h with
  | init hw => rw [both_init]; exact .init hw
  | call f ctx h hc ih => rw [both_start]; exact ih.call _ _ ctx hc
  | cancel h hs ih => exact ih.cancel (both_cancels _ hs)
  | @inner n _ h hs ih =>
    refine ih.inner ?_
    cases hs with
    | own w' ho => exact .own (n.both .run) w' ho
    | deferReturns i ctx0 b d m hc hj => exact .deferReturns (n.both .run) i ctx0 b d m hc hj (both_other (by simp)) (by simp [Nest.both])
    | run i f k ctx hc hr hn hk => exact both_call _ ctx hc (runs_iff.mp hr) hn hk
    | wait i k hc hr hn hk hd => exact both_waits _ hc (runs_iff.mp hr) hn hk hd
    | returns i ctx0 b d ph m e hc hj hg hn hk =>
      exact .runReturns (n.both .run) i ctx0 b d ph m e hc hj hg (both_inRun hn _) (by simp [Nest.both, hk, Code.body])

/-- **C145.** The executions of C144 are executions of C145 in which every `run` makes no calls. -/
theorem C145_has_C144 {size : Int} {n : Nest E V} (h : DReach size n) : BReach size (n.both .deferFunc) := by
  induction h with
  | init hw => rw [both_init]; exact .init hw
  | @step n _ h hs ih =>
    cases hs with
    | call f ctx hc => rw [both_start]; exact ih.call _ _ ctx hc
    | cancel hs => exact ih.cancel (both_cancels _ hs)
    | inner hs =>
      refine ih.inner ?_
      cases hs with
      | own w' ho => exact .own (n.both .deferFunc) w' ho
      | runEnds i ctx0 b d ph m e hc hj hg =>
        exact .runReturns (n.both .deferFunc) i ctx0 b d ph m e hc hj hg (both_other (by simp)) (by simp [Nest.both])
      | run i f k ctx hc hr hn hk => exact both_call _ ctx hc (finishing_iff.mp hr) hn hk
      | wait i k hc hr hn hk hd => exact both_waits _ hc (finishing_iff.mp hr) hn hk hd
      | returns i ctx0 b d m hc hj hn hk =>
        exact .deferReturns (n.both .deferFunc) i ctx0 b d m hc hj (both_inRun hn _) (by simp [Nest.both, hk, Code.body])

/-! ## Examples -/

/-- Workers of every size are jammed in C145 by functions `run` alone and by `deferFunc`s alone. -/
example (s : Nat) : BReach s ((crowdD s s s).both .deferFunc) := C145_has_C144 (crowdD_nested s s (Nat.le_refl _))
example (s : Nat) : BReach s ((crowd s s s).both .run) := C145_has_C125 (crowd_nested s s (Nat.le_refl _))

end Verif.XWorker

import Verif.XWorker.BothMade
/-!
# Functions given to a `Worker` that call `Run` and panic (C146)

The model of `Both.lean`, in which `run` and `deferFunc` call `Run` of the worker that executes them and wait for their calls; here they may also end with a
panic that they do not recover, before, between and after their calls. A panic of `deferFunc` ends the program (xworker.go:44 runs on a goroutine of its
own); one of `run` is handed to `Do` (xtask/do.go:43-47), which raises it again and so ends the program too, unless it has left before as the context was done.
Simplification: `deferFunc` is not nil, and functions do not end with `runtime.Goexit` (C77).
-/
namespace Verif.XWorker
open Verif.Go Verif.XTask

variable {E V : Type}

/-! ## Model -/

/-- The code of a function given to `Run` as far as the worker is concerned. -/
inductive PBody where
  | ret
  /-- a panic that the function does not recover -/
  | panic
  /-- `w.Run(ctx, r, d)` and then `k` -/
  | run (r d k : PBody)
  /-- wait until the `deferFunc`s of all calls made so far have returned, and then `k` -/
  | wait (k : PBody)
  deriving DecidableEq

/-- A worker and the functions given to it, which are named by the index of the call of `Run` and the part. -/
structure PBoth (E V : Type) where
  w : Worker E V
  /-- the function given to the call -/
  fn : Nat → Part → PBody
  /-- what it still has to do -/
  code : Nat → Part → PBody
  /-- the calls of `Run` it has made, the last one first -/
  kids : Nat → Part → List Nat

/-- The function is executing. -/
def PBoth.active (n : PBoth E V) (i : Nat) : Part → Prop
  | .run => n.w.runs i
  | .deferFunc => n.w.finishing i

/-- The function is inside a call of `Run`: the last one it made has not returned. -/
def PBoth.inRun (n : PBoth E V) (i : Nat) (s : Part) : Prop := ∃ j l, n.kids i s = j :: l ∧ n.w.waiting j

/-- A call of `Run` with the functions `r` and `d`: xworker.go:36-37. -/
def PBoth.start (n : PBoth E V) (r d : PBody) (ctx : Option E) : PBoth E V :=
  { w := { n.w with jobs := n.w.jobs ++ [.pending ctx false] }
    fn := upd2 (upd2 n.fn n.w.jobs.length .run r) n.w.jobs.length .deferFunc d
    code := upd2 (upd2 n.code n.w.jobs.length .run r) n.w.jobs.length .deferFunc d
    kids := upd2 (upd2 n.kids n.w.jobs.length .run []) n.w.jobs.length .deferFunc [] }

/-- What the worker and the functions in it do: xworker.go:36-48 together with the code of the functions. -/
inductive InnerP : PBoth E V → PBoth E V → Prop where
  /-- a step of the worker itself -/
  | own (n : PBoth E V) (w' : Worker E V) : Own n.w w' → InnerP n { n with w := w' }
  /-- a function calls `Run` -/
  | run (n : PBoth E V) (i : Nat) (s : Part) (r d k : PBody) (ctx : Option E) : n.w.crashed = false → n.active i s → ¬ n.inRun i s → n.code i s = .run r d k →
      InnerP n ({ n with code := upd2 n.code i s k, kids := upd2 n.kids i s (n.w.jobs.length :: n.kids i s) }.start r d ctx)
  /-- a function has waited for the `deferFunc`s of its calls -/
  | wait (n : PBoth E V) (i : Nat) (s : Part) (k : PBody) : n.w.crashed = false → n.active i s → ¬ n.inRun i s → n.code i s = .wait k →
      (∀ j ∈ n.kids i s, n.w.deferred j) → InnerP n { n with code := upd2 n.code i s k }
  /-- `run` returns -/
  | runReturns (n : PBoth E V) (i : Nat) (ctx0 : Option E) (b : Bool) (d : DoSt E V) (ph : Phase) (m : Nat) (e : E) : n.w.crashed = false →
      n.w.jobs[i]? = some (.accepted ctx0 b d ph m) → d.gor = .running → ¬ n.inRun i .run → n.code i .run = .ret →
      InnerP n { n with w := { n.w with jobs := n.w.jobs.set i (.accepted ctx0 b { d with gor := .finished (.returned e) } ph m) } }
  /-- `deferFunc` returns -/
  | deferReturns (n : PBoth E V) (i : Nat) (ctx0 : Option E) (b : Bool) (d : DoSt E V) (m : Nat) : n.w.crashed = false →
      n.w.jobs[i]? = some (.accepted ctx0 b d .executing m) → ¬ n.inRun i .deferFunc → n.code i .deferFunc = .ret →
      InnerP n { n with w := { n.w with jobs := n.w.jobs.set i (.accepted ctx0 b d .after m) } }
  /-- `run` panics -/
  | runPanics (n : PBoth E V) (i : Nat) (ctx0 : Option E) (b : Bool) (d : DoSt E V) (ph : Phase) (m : Nat) (v : V) : n.w.crashed = false →
      n.w.jobs[i]? = some (.accepted ctx0 b d ph m) → d.gor = .running → ¬ n.inRun i .run → n.code i .run = .panic →
      InnerP n { n with w := { n.w with jobs := n.w.jobs.set i (.accepted ctx0 b { d with gor := .finished (.panicked v) } ph m) } }
  /-- `deferFunc` panics -/
  | deferPanics (n : PBoth E V) (i : Nat) (ctx0 : Option E) (b : Bool) (d : DoSt E V) (m : Nat) : n.w.crashed = false →
      n.w.jobs[i]? = some (.accepted ctx0 b d .executing m) → ¬ n.inRun i .deferFunc → n.code i .deferFunc = .panic →
      InnerP n { n with w := { n.w with jobs := n.w.jobs.set i (.accepted ctx0 b d .panicked m), crashed := true } }

/-- A context becomes done: that of a waiting or of an accepted call. -/
inductive CancelsP : PBoth E V → PBoth E V → Prop where
  | pending (n : PBoth E V) (i : Nat) (b : Bool) (e : E) : n.w.crashed = false → n.w.jobs[i]? = some (.pending none b) →
      CancelsP n { n with w := { n.w with jobs := n.w.jobs.set i (.pending (some e) b) } }
  | accepted (n : PBoth E V) (i : Nat) (ctx0 : Option E) (b : Bool) (d : DoSt E V) (ph : Phase) (m : Nat) (e : E) : n.w.crashed = false →
      n.w.jobs[i]? = some (.accepted ctx0 b d ph m) → d.ctx = none →
      CancelsP n { n with w := { n.w with jobs := n.w.jobs.set i (.accepted ctx0 b { d with ctx := some e } ph m) } }

/-- All executions: `Run` is called from outside with any functions, and everything else happens in any order. -/
inductive PReach (size : Int) : PBoth E V → Prop where
  | init {w : Worker E V} : newWorker size = some w → PReach size ⟨w, fun _ _ => .ret, fun _ _ => .ret, fun _ _ => []⟩
  | call {n : PBoth E V} (r d : PBody) (ctx : Option E) : PReach size n → n.w.crashed = false → PReach size (n.start r d ctx)
  | cancel {n n' : PBoth E V} : PReach size n → CancelsP n n' → PReach size n'
  | inner {n n' : PBoth E V} : PReach size n → InnerP n n' → PReach size n'

/-! ## Specification -/

/-- The function makes a call of `Run`. -/
def PBody.calls : PBody → Prop
  | .ret => False
  | .panic => False
  | .run _ _ _ => True
  | .wait k => k.calls

/-- The function ends with a panic. -/
def PBody.panics : PBody → Prop
  | .ret => False
  | .panic => True
  | .run _ _ k => k.panics
  | .wait k => k.panics

/-- The function waits for the worker: it is executing and is inside a call of `Run` that has found no free slot, or it waits for the `deferFunc` of a call
it has made. -/
def PBoth.Waits (n : PBoth E V) (i : Nat) (s : Part) : Prop :=
  n.active i s ∧ (n.inRun i s ∨ (∃ k, n.code i s = .wait k) ∧ ∃ j ∈ n.kids i s, ¬ n.w.deferred j)

/-- A function given to call `i` holds its slot and waits for the worker: `run`, whose context is not done, or `deferFunc`. -/
def PBoth.Holds (n : PBoth E V) (i : Nat) : Prop :=
  n.Waits i .deferFunc ∨ n.Waits i .run ∧ ∃ ctx0 b d m, n.w.jobs[i]? = some (.accepted ctx0 b d .before m) ∧ d.ctx = none

/-- Call `i` is over: `run` has returned, or its context was done and it was not called, has returned or has panicked unseen; `deferFunc` has been called once
and has returned, the slot is free. -/
def PBoth.Over (n : PBoth E V) (i : Nat) : Prop :=
  ∃ ctx0 b d e, n.w.jobs[i]? = some (.accepted ctx0 b d .after 1) ∧ d.caller = .left (.err e) ∧ (d.ctx = some e ∨ d.gor = .ended (.returned e)) ∧
    d.gor ≠ .running

/-! ## Proofs -/

theorem innerP_w {n n' : PBoth E V} (h : InnerP n n') : WStep n.w n'.w ∨ n'.w = n.w := by
  cases h with
  | own w' h => exact .inl (step_iff.mpr (.inl h))
  | run i s r d k ctx hc hr hn hk => exact .inl (.call _ ctx false hc)
  | wait i s k hc hr hn hk hd => exact .inr rfl
  | runReturns i ctx0 b d ph m e hc hj hg hn hk => exact .inl (step_iff.mpr (.inr (.runEnds _ _ _ _ _ _ _ _ hc hj hg)))
  | deferReturns i ctx0 b d m hc hj hn hk => exact .inl (.deferReturn _ _ _ _ _ _ hc hj)
  | runPanics i ctx0 b d ph m v hc hj hg hn hk => exact .inl (step_iff.mpr (.inr (.runEnds _ _ _ _ _ _ _ _ hc hj hg)))
  | deferPanics i ctx0 b d m hc hj hn hk => exact .inl (.deferPanic _ _ _ _ _ _ hc hj)

theorem cancelsP_w {n n' : PBoth E V} (h : CancelsP n n') : WStep n.w n'.w := by
  cases h with
  | pending i b e hc hj => exact .cancel _ _ _ _ hc hj
  | accepted i ctx0 b d ph m e hc hj hx => exact step_iff.mpr (.inr (.cancel _ _ _ _ _ _ _ _ hc hj hx))

/-- **C146.** The worker does what it does with any other functions: the states of the worker are states of the model of C13, C14, C78 and C116. -/
theorem C146_worker {size : Int} {n : PBoth E V} (h : PReach size n) : WReach size n.w := by
  induction h with
  | init hw => exact .init hw
  | call r d ctx h hc ih => exact ih.step (.call _ ctx false hc)
  | cancel h hs ih => exact ih.step (cancelsP_w hs)
  | inner h hs ih =>
    rcases innerP_w hs with hw | hw
    · exact ih.step hw
    · rw [hw]; exact ih

theorem activeP_lt {n : PBoth E V} {i : Nat} {s : Part} (h : n.active i s) : i < n.w.jobs.length := by
  cases s with
  | run => obtain ⟨_, _, _, _, _, hj, _⟩ := h; exact (List.getElem?_eq_some_iff.mp hj).1
  | deferFunc => obtain ⟨_, _, _, _, hj⟩ := h; exact (List.getElem?_eq_some_iff.mp hj).1

/-- Proof only: `deferFunc` is not nil, `run` has ended with a return or as its code says with a panic, and `deferFunc` panicked as its code says. -/
def OkP (code : Part → PBody) : Job E V → Prop
  | .pending _ b => b = false
  | .accepted _ b d ph _ => b = false ∧ (∀ o, d.gor = .finished o ∨ d.gor = .ended o → (∃ e, o = .returned e) ∨ (∃ v, o = .panicked v) ∧ code .run = .panic) ∧
      (ph = .panicked → code .deferFunc = .panic)

/-- Proof only: part of an invariant or simulation; models no code. -/
structure PInv (n : PBoth E V) : Prop where
  ok : ∀ i j, n.w.jobs[i]? = some j → OkP (n.code i) j
  kids : ∀ i s, ∀ j ∈ n.kids i s, i < j ∧ j < n.w.jobs.length
  code : ∀ i s, (n.code i s).calls → (n.fn i s).calls
  made : ∀ i s, n.kids i s ≠ [] → (n.fn i s).calls
  pan : ∀ i s, (n.code i s).panics → (n.fn i s).panics

theorem okP_set {jobs : List (Job E V)} {code : Nat → Part → PBody} {k : Nat} {a : Job E V} (h : ∀ i j, jobs[i]? = some j → OkP (code i) j)
    (ha : OkP (code k) a) : ∀ i j, (jobs.set k a)[i]? = some j → OkP (code i) j := by
  intro i j hi
  by_cases e : k = i
  · subst e
    have hlt : k < jobs.length := by simpa using (List.getElem?_eq_some_iff.mp hi).1
    rw [List.getElem?_set_self hlt, Option.some.injEq] at hi
    subst hi
    exact ha
  · rw [List.getElem?_set_ne e] at hi
    exact h i j hi

/-- A function that is executing goes on. -/
theorem okP_upd {n : PBoth E V} {i : Nat} {s : Part} (ha : n.active i s) (k : PBody) (h : ∀ x j, n.w.jobs[x]? = some j → OkP (n.code x) j) :
    ∀ x j, n.w.jobs[x]? = some j → OkP (upd2 n.code i s k x) j := by
  intro x j hj
  have hx := h x j hj
  by_cases e : x = i
  · subst e
    cases s with
    | run =>
      obtain ⟨_, _, _, _, _, hj', hg⟩ := ha
      rw [hj, Option.some.injEq] at hj'
      subst hj'
      exact ⟨hx.1, fun o ho => by rw [hg] at ho; simp at ho, fun hp => by rw [upd2_ne _ _ (by simp)]; exact hx.2.2 hp⟩
    | deferFunc =>
      obtain ⟨_, _, _, _, hj'⟩ := ha
      rw [hj, Option.some.injEq] at hj'
      subst hj'
      exact ⟨hx.1, fun o ho => by rw [upd2_ne _ _ (by simp)]; exact hx.2.1 o ho, by simp⟩
  · have : upd2 n.code i s k x = n.code x := by funext t; exact upd2_ne _ _ (by simp [e])
    rw [this]; exact hx

theorem okP_do {code : Part → PBody} {d d' : DoSt E V} (h : DoStep true d d') (hf : d.gor = .running → d'.gor = .running)
    (hc : ∀ o, d.gor = .finished o ∨ d.gor = .ended o → (∃ e, o = .returned e) ∨ (∃ v, o = .panicked v) ∧ code .run = .panic) :
    ∀ o, d'.gor = .finished o ∨ d'.gor = .ended o → (∃ e, o = .returned e) ∨ (∃ v, o = .panicked v) ∧ code .run = .panic := by
  cases h <;> simp_all

theorem PInv.start {n : PBoth E V} (r d : PBody) (ctx : Option E) (ho : ∀ i j, n.w.jobs[i]? = some j → OkP (n.code i) j)
    (hk : ∀ i s, ∀ j ∈ n.kids i s, i < j ∧ j < n.w.jobs.length + 1) (hc : ∀ i s, (n.code i s).calls → (n.fn i s).calls)
    (hm : ∀ i s, n.kids i s ≠ [] → (n.fn i s).calls) (hp : ∀ i s, (n.code i s).panics → (n.fn i s).panics) : PInv (n.start r d ctx) where
  ok := by
    intro i j hj
    by_cases e : i < n.w.jobs.length
    · simp only [PBoth.start] at hj ⊢
      rw [List.getElem?_append_left e] at hj
      have : upd2 (upd2 n.code n.w.jobs.length .run r) n.w.jobs.length .deferFunc d i = n.code i := by
        funext t; rw [start_at, if_neg (by omega)]
      rw [this]; exact ho i j hj
    · simp only [PBoth.start] at hj
      rw [List.getElem?_append_right (Nat.not_lt.mp e)] at hj
      cases hx : i - n.w.jobs.length with
      | zero =>
        simp only [hx, List.getElem?_cons_zero, Option.some.injEq] at hj
        subst hj; rfl
      | succ x => simp [hx] at hj
  kids := by
    intro i s j hj
    simp only [PBoth.start, start_at] at hj
    split at hj
    · cases s <;> simp at hj
    · have := hk i s j hj
      simp only [PBoth.start, List.length_append, List.length_singleton]; exact this
  code := by
    intro i s hi
    simp only [PBoth.start, start_at] at hi ⊢
    split at hi
    · rename_i e; rw [if_pos e]; exact hi
    · rename_i e; rw [if_neg e]; exact hc i s hi
  made := by
    intro i s hi
    simp only [PBoth.start, start_at] at hi ⊢
    split at hi
    · cases s <;> simp at hi
    · rename_i e; rw [if_neg e]; exact hm i s hi
  pan := by
    intro i s hi
    simp only [PBoth.start, start_at] at hi ⊢
    split at hi
    · rename_i e; rw [if_pos e]; exact hi
    · rename_i e; rw [if_neg e]; exact hp i s hi

theorem p_inv {size : Int} {n : PBoth E V} (h : PReach size n) : PInv n := by
  induction h with
  | init hw =>
    unfold newWorker at hw
    split at hw
    · simp at hw
    · simp only [Option.some.injEq] at hw; subst hw
      exact ⟨by simp, by simp, by simp [PBody.calls], by simp, by simp [PBody.panics]⟩
  | @call n r d ctx h hc ih =>
    exact PInv.start r d ctx ih.ok (fun i s j hj => by have := ih.kids i s j hj; omega) ih.code ih.made ih.pan
  | cancel h hs ih =>
    cases hs with
    | pending i b e hc hj =>
      exact ⟨okP_set ih.ok (a := .pending (some e) b) (ih.ok i (.pending none b) hj), by simpa using ih.kids, ih.code, ih.made, ih.pan⟩
    | accepted i ctx0 b d ph m e hc hj hx =>
      obtain ⟨c1, c2, c3⟩ := ih.ok _ _ hj
      exact ⟨okP_set ih.ok ⟨c1, c2, c3⟩, by simpa using ih.kids, ih.code, ih.made, ih.pan⟩
  | @inner n _ h hs ih =>
    cases hs with
    | own w' ho =>
      refine ⟨?_, by simpa [length_own ho] using ih.kids, ih.code, ih.made, ih.pan⟩
      cases ho with
      | accept i ctx b c h1 h2 h3 => exact okP_set ih.ok ⟨ih.ok _ _ h2, by simp [doInit], by simp⟩
      | doOwn i ctx0 b d d' ph m h1 h2 h3 h4 =>
        obtain ⟨c1, c2, c3⟩ := ih.ok _ _ h2
        exact okP_set ih.ok ⟨c1, okP_do h3.1 h3.2.2 c2, c3⟩
      | deferCall i ctx0 d m o h1 h2 h3 =>
        obtain ⟨c1, c2, c3⟩ := ih.ok _ _ h2
        exact okP_set ih.ok ⟨c1, c2, by simp⟩
      | deferNil i ctx0 d m o h1 h2 h3 => exact absurd (ih.ok _ _ h2).1 (by simp)
      | release i ctx0 b d d' m c o h1 h2 h3 h4 h5 h6 =>
        obtain ⟨c1, c2, c3⟩ := ih.ok _ _ h2
        exact okP_set ih.ok ⟨c1, okP_do h5 (by cases h5 <;> simp_all) c2, c3⟩
    | run i s r d k ctx hc hr hn hk =>
      have hf : (n.fn i s).calls := ih.code i s (by rw [hk]; trivial)
      refine PInv.start (n := { n with code := upd2 n.code i s k, kids := upd2 n.kids i s (n.w.jobs.length :: n.kids i s) }) r d ctx
        (okP_upd hr k ih.ok) (fun x t j hj => ?_) (fun x t hx => ?_) (fun x t hx => ?_) (fun x t hx => ?_)
      · simp only [upd2] at hj
        split at hj
        · rename_i e
          rcases List.mem_cons.mp hj with rfl | hj
          · exact ⟨e.1 ▸ activeP_lt hr, Nat.lt_succ_self _⟩
          · have := ih.kids i s j hj; exact ⟨by omega, by simp only; omega⟩
        · have := ih.kids x t j hj; exact ⟨by omega, by simp only; omega⟩
      · simp only [upd2] at hx
        split at hx
        · rename_i e; rw [e.1, e.2]; exact hf
        · exact ih.code x t hx
      · simp only [upd2] at hx
        split at hx
        · rename_i e; rw [e.1, e.2]; exact hf
        · exact ih.made x t hx
      · simp only [upd2] at hx
        split at hx
        · rename_i e; rw [e.1, e.2]; exact ih.pan i s (by rw [hk]; exact hx)
        · exact ih.pan x t hx
    | wait i s k hc hr hn hk hd =>
      refine ⟨okP_upd hr k ih.ok, ih.kids, fun x t hx => ?_, ih.made, fun x t hx => ?_⟩
      · simp only [upd2] at hx
        split at hx
        · rename_i e; rw [e.1, e.2]; exact ih.code i s (by rw [hk]; exact hx)
        · exact ih.code x t hx
      · simp only [upd2] at hx
        split at hx
        · rename_i e; rw [e.1, e.2]; exact ih.pan i s (by rw [hk]; exact hx)
        · exact ih.pan x t hx
    | runReturns i ctx0 b d ph m e hc hj hg hn hk =>
      obtain ⟨c1, c2, c3⟩ := ih.ok _ _ hj
      exact ⟨okP_set ih.ok ⟨c1, by simp, c3⟩, by simpa using ih.kids, ih.code, ih.made, ih.pan⟩
    | deferReturns i ctx0 b d m hc hj hn hk =>
      obtain ⟨c1, c2, c3⟩ := ih.ok _ _ hj
      exact ⟨okP_set ih.ok ⟨c1, c2, by simp⟩, by simpa using ih.kids, ih.code, ih.made, ih.pan⟩
    | runPanics i ctx0 b d ph m v hc hj hg hn hk =>
      obtain ⟨c1, c2, c3⟩ := ih.ok _ _ hj
      exact ⟨okP_set ih.ok ⟨c1, by simp [hk], c3⟩, by simpa using ih.kids, ih.code, ih.made, ih.pan⟩
    | deferPanics i ctx0 b d m hc hj hn hk =>
      obtain ⟨c1, c2, c3⟩ := ih.ok _ _ hj
      exact ⟨okP_set ih.ok ⟨c1, c2, fun _ => hk⟩, by simpa using ih.kids, ih.code, ih.made, ih.pan⟩

/-- **C146.** The program is ended by the worker only if a `deferFunc` panicked as its code says, or a `run` panicked as its code says and `Do` raised the
panic again; and it is ended then. -/
theorem C146_crash {size : Int} {n : PBoth E V} (h : PReach size n) : n.w.crashed = true ↔
    ∃ i ctx0 b d ph m, n.w.jobs[i]? = some (.accepted ctx0 b d ph m) ∧
      (ph = .panicked ∧ n.code i .deferFunc = .panic ∨ ∃ v, d.caller = .left (.panic v) ∧ d.gor = .ended (.panicked v) ∧ n.code i .run = .panic) := by
  rw [C78_exact (C146_worker h)]
  constructor
  · rintro ⟨ctx0, b, d, ph, m, hm, hx⟩
    obtain ⟨i, hj⟩ := List.mem_iff_getElem?.mp hm
    obtain ⟨c1, c2, c3⟩ := (p_inv h).ok _ _ hj
    refine ⟨i, ctx0, b, d, ph, m, hj, hx.imp (fun hp => ⟨hp, c3 hp⟩) fun ⟨v, hv⟩ => ?_⟩
    obtain ⟨g1, _⟩ := (w_inv (C146_worker h)).jobs _ hm
    rcases (do_inv g1).out _ (.inr hv) with ⟨e, he, _⟩ | ⟨p, hp, hg⟩
    · simp at he
    · simp only [Out.panic.injEq] at hp; subst hp
      rcases c2 _ (.inr hg) with ⟨e, he⟩ | ⟨_, he⟩
      · simp at he
      · exact ⟨_, hv, hg, he⟩
  · rintro ⟨i, ctx0, b, d, ph, m, hj, hx⟩
    exact ⟨_, _, _, _, _, List.mem_of_getElem? hj, hx.imp (fun h => h.1) fun ⟨v, h, _⟩ => ⟨v, h⟩⟩

/-- **C146.** If none of the functions given to `Run`, from outside or by a function, ends with a panic, the program is not ended. -/
theorem C146_no_crash {size : Int} {n : PBoth E V} (h : PReach size n) (hp : ∀ i s, ¬ (n.fn i s).panics) : n.w.crashed = false := by
  cases hc : n.w.crashed with
  | false => rfl
  | true =>
    obtain ⟨i, _, _, _, _, _, _, ⟨_, hx⟩ | ⟨_, _, _, hx⟩⟩ := (C146_crash h).mp hc
    · exact absurd ((p_inv h).pan i .deferFunc (by rw [hx]; trivial)) (hp _ _)
    · exact absurd ((p_inv h).pan i .run (by rw [hx]; trivial)) (hp _ _)

/-! ### Every execution ends -/

/-- Proof only: part of a measure; models no code. -/
def PBody.weight : PBody → Nat
  | .ret => 0
  | .panic => 0
  | .run r d k => 14 + r.weight + d.weight + k.weight
  | .wait k => 1 + k.weight

/-- Proof only: the sum of the weights of what the functions have still to do. -/
def bodiesP (c : Nat → Part → PBody) : Nat → Nat
  | 0 => 0
  | m + 1 => bodiesP c m + (c m .run).weight + (c m .deferFunc).weight

/-- Proof only: part of a measure; models no code. -/
def PBoth.weight (n : PBoth E V) : Nat := n.w.weight + bodiesP n.code n.w.jobs.length

theorem bodiesP_congr {c c' : Nat → Part → PBody} : ∀ m, (∀ i s, i < m → c' i s = c i s) → bodiesP c' m = bodiesP c m
  | 0, _ => rfl
  | m + 1, h => by simp only [bodiesP]; rw [bodiesP_congr m fun i s hi => h i s (by omega), h m .run (by omega), h m .deferFunc (by omega)]

theorem bodiesP_upd {c : Nat → Part → PBody} {i : Nat} {s : Part} (k : PBody) : ∀ m, i < m → bodiesP (upd2 c i s k) m + (c i s).weight = bodiesP c m + k.weight
  | 0, h => by omega
  | m + 1, h => by
    simp only [bodiesP]
    by_cases e : i = m
    · subst e
      rw [bodiesP_congr (c := c) i fun x t hx => upd2_ne c k (by omega)]
      cases s <;> simp [upd2] <;> omega
    · have := bodiesP_upd (c := c) (i := i) (s := s) k m (by omega)
      rw [upd2_ne c k (by omega), upd2_ne c k (by omega)]; omega

theorem cancelsP_weight {n n' : PBoth E V} (h : CancelsP n n') : n'.weight < n.weight := by
  have hl : n'.w.jobs.length = n.w.jobs.length := by cases h <;> simp
  have hc : n'.code = n.code := by cases h <;> rfl
  have := weight_lt (cancelsP_w h) hl
  simp only [PBoth.weight, hl, hc]
  omega

theorem startP_weight (n : PBoth E V) (r d : PBody) (ctx : Option E) : (n.start r d ctx).weight ≤ n.weight + 13 + r.weight + d.weight := by
  have h1 : bodiesP (upd2 (upd2 n.code n.w.jobs.length .run r) n.w.jobs.length .deferFunc d) n.w.jobs.length = bodiesP n.code n.w.jobs.length :=
    bodiesP_congr _ fun i s hi => by rw [upd2_ne _ _ (by omega), upd2_ne _ _ (by omega)]
  have h2 : Job.weight (.pending ctx false : Job E V) ≤ 13 := by simp only [Job.weight]; split <;> omega
  have h3 : upd2 (upd2 n.code n.w.jobs.length .run r) n.w.jobs.length .deferFunc d n.w.jobs.length .run = r := by simp [upd2]
  have h4 : upd2 (upd2 n.code n.w.jobs.length .run r) n.w.jobs.length .deferFunc d n.w.jobs.length .deferFunc = d := by simp [upd2]
  simp only [PBoth.weight, PBoth.start, Worker.weight, List.length_append, List.length_singleton, bodiesP, h1, h3, h4, List.map_append, List.map_cons,
    List.map_nil, List.sum_append, List.sum_cons, List.sum_nil]
  by_cases hcr : n.w.crashed = true <;> simp only [hcr, Bool.false_eq_true, if_true, if_false] <;> omega

theorem innerP_weight {n n' : PBoth E V} (h : InnerP n n') : n'.weight < n.weight := by
  cases h with
  | own w' ho =>
    have := weight_lt (step_iff.mpr (.inl ho)) (length_own ho)
    simp only [PBoth.weight, length_own ho]
    omega
  | run i s r d k ctx hc hr hn hk =>
    have h1 := bodiesP_upd (c := n.code) (s := s) k _ (activeP_lt hr)
    have h2 := startP_weight { n with code := upd2 n.code i s k, kids := upd2 n.kids i s (n.w.jobs.length :: n.kids i s) } r d ctx
    rw [hk] at h1
    simp only [PBody.weight] at h1
    simp only [PBoth.weight] at h2 ⊢
    omega
  | wait i s k hc hr hn hk hd =>
    have h1 := bodiesP_upd (c := n.code) (s := s) k _ (activeP_lt hr)
    rw [hk] at h1
    simp only [PBody.weight] at h1
    simp only [PBoth.weight]
    omega
  | runReturns i ctx0 b d ph m e hc hj hg hn hk =>
    have := weight_lt (step_iff.mpr (.inr (.runEnds _ _ _ _ _ _ _ (.returned e) hc hj hg))) (by simp)
    simp only [PBoth.weight, List.length_set]
    omega
  | deferReturns i ctx0 b d m hc hj hn hk =>
    have := weight_lt (.deferReturn _ _ _ _ _ _ hc hj) (by simp)
    simp only [PBoth.weight, List.length_set]
    omega
  | runPanics i ctx0 b d ph m v hc hj hg hn hk =>
    have := weight_lt (step_iff.mpr (.inr (.runEnds _ _ _ _ _ _ _ (.panicked v) hc hj hg))) (by simp)
    simp only [PBoth.weight, List.length_set]
    omega
  | deferPanics i ctx0 b d m hc hj hn hk =>
    have := weight_lt (.deferPanic _ _ _ _ _ _ hc hj) (by simp)
    simp only [PBoth.weight, List.length_set]
    omega

/-- **C146.** Without new calls from outside every execution ends, whatever the schedule. -/
theorem C146_ends (n : PBoth E V) : Acc (fun n' n => InnerP n n' ∨ CancelsP n n') n := by
  have : ∀ k, ∀ n : PBoth E V, n.weight < k → Acc (fun n' n => InnerP n n' ∨ CancelsP n n') n := by
    intro k
    induction k with
    | zero => intro m h; omega
    | succ k ih =>
      refine fun m h => ⟨_, fun m' hs => ih m' ?_⟩
      rcases hs with hs | hs
      · have := innerP_weight hs; omega
      · have := cancelsP_weight hs; omega
  exact this _ n (Nat.lt_succ_self _)

/-! ### States in which nothing happens any more -/

theorem stuckP_active [Nonempty E] [Nonempty V] {n : PBoth E V} (hc : n.w.crashed = false) (hs : ∀ n', ¬ InnerP n n') {i : Nat} {s : Part} (hr : n.active i s) :
    n.Waits i s := by
  refine ⟨hr, Classical.byContradiction fun hno => ?_⟩
  obtain ⟨hn, hno⟩ := not_or.mp hno
  cases hk : n.code i s with
  | ret =>
    cases s with
    | run =>
      obtain ⟨ctx0, b, d, ph, m, hj, hg⟩ := hr
      exact hs _ (.runReturns n i ctx0 b d ph m (Classical.choice ‹Nonempty E›) hc hj hg hn hk)
    | deferFunc =>
      obtain ⟨ctx0, b, d, m, hj⟩ := hr
      exact hs _ (.deferReturns n i ctx0 b d m hc hj hn hk)
  | panic =>
    cases s with
    | run =>
      obtain ⟨ctx0, b, d, ph, m, hj, hg⟩ := hr
      exact hs _ (.runPanics n i ctx0 b d ph m (Classical.choice ‹Nonempty V›) hc hj hg hn hk)
    | deferFunc =>
      obtain ⟨ctx0, b, d, m, hj⟩ := hr
      exact hs _ (.deferPanics n i ctx0 b d m hc hj hn hk)
  | run r d k => exact hs _ (.run n i s r d k none hc hr hn hk)
  | wait k =>
    refine hs _ (.wait n i s k hc hr hn hk fun j hj => Classical.byContradiction fun hd => hno ⟨⟨k, hk⟩, j, hj, hd⟩)

theorem busy_holdsP [Nonempty E] [Nonempty V] {size : Int} {n : PBoth E V} (h : PReach size n) (hc : n.w.crashed = false) (hs : ∀ n', ¬ InnerP n n') {i : Nat} {j : Job E V}
    (hj : n.w.jobs[i]? = some j) (hb : j.busy = true) : n.Holds i := by
  cases j with
  | pending => simp [Job.busy] at hb
  | accepted ctx0 b d ph m =>
    have hm := List.mem_of_getElem? hj
    obtain ⟨c1, c2, c3⟩ := (p_inv h).ok _ _ hj
    obtain ⟨g1, g2, g3, g4⟩ := (w_inv (C146_worker h)).jobs _ hm
    by_cases hex : ph = .executing
    · subst hex
      exact .inl (stuckP_active hc hs (s := .deferFunc) ⟨_, _, _, _, hj⟩)
    · have hd : d.caller = .wait ∧ d.ctx = none ∧ d.gor = .running := by
        simp only [Job.busy] at hb
        split at hb
        · exact absurd rfl hex
        · rename_i h1 h2 h3; exact ⟨h1, h2, h3⟩
        · rename_i h1 h2 h3
          rcases c2 _ (.inr h3) with ⟨e, he⟩ | ⟨⟨v, he⟩, _⟩ <;> simp at he
        · simp at hb
      have hph : ph = .before := Classical.byContradiction fun hp => by
        obtain ⟨o, ho | ho⟩ := (g3 hp).2 <;> rw [hd.1] at ho <;> simp at ho
      subst hph
      exact .inr ⟨stuckP_active hc hs (s := .run) ⟨_, _, _, _, _, hj, hd.2.2⟩, _, _, _, _, hj, hd.2.1⟩

/-! ## Theorems -/

/-- **C146.** How an execution ends: every call is over, or a call of `Run` waits for a slot and all slots are held by functions – `run` or `deferFunc` –
that wait for the worker. -/
theorem C146_exact [Nonempty E] [Nonempty V] {size : Int} {n : PBoth E V} (h : PReach size n) (hc : n.w.crashed = false) (hs : ∀ n', ¬ InnerP n n') :
    (∀ i, i < n.w.jobs.length → n.Over i) ∨
    (∃ i, n.w.waiting i) ∧ ∃ l : List Nat, l.Nodup ∧ (l.length : Int) = size ∧ ∀ i ∈ l, n.Holds i := by
  have hw := C146_worker h
  have hown : ∀ w', ¬ Own n.w w' := fun w' ho => hs _ (.own n w' ho)
  by_cases hp : ∃ i, n.w.waiting i
  · right
    refine ⟨hp, (List.range n.w.jobs.length).filter fun i => (n.w.jobs[i]?).any Job.busy, (List.nodup_range).filter _, ?_, ?_⟩
    · obtain ⟨i, ctx, b, hj⟩ := hp
      rw [range_filter]
      exact C116_waits hw hc hown hj
    · intro i hi
      have hb := (List.mem_filter.mp hi).2
      cases hj : n.w.jobs[i]? with
      | none => simp [hj] at hb
      | some j => exact busy_holdsP h hc hs hj (by simpa [hj] using hb)
  · left
    have key : ∀ k i, n.w.jobs.length - i ≤ k → i < n.w.jobs.length → n.Over i := by
      intro k
      induction k with
      | zero => intro i h1 h2; omega
      | succ k ih =>
        intro i hk hi
        have hidle : ∀ s, ¬ n.active i s := fun s ha => by
          rcases (stuckP_active hc hs ha).2 with ⟨j, l, -, h1⟩ | ⟨-, j, hj, h1⟩
          · exact hp ⟨j, h1⟩
          · have hlt := (p_inv h).kids i s j hj
            obtain ⟨ctx0, b, d, e, hj', -⟩ := ih j (by omega) hlt.2
            exact h1 ⟨_, _, _, _, hj'⟩
        cases hj : n.w.jobs[i]? with
        | none => rw [List.getElem?_eq_none_iff] at hj; omega
        | some j =>
          cases j with
          | pending ctx b => exact absurd ⟨i, _, _, hj⟩ hp
          | accepted ctx0 b d ph m =>
            rcases C116_accepted hw hc hown hj with hb | ⟨rfl, rfl, e, h1, h2⟩
            · rcases busy_holdsP h hc hs hj hb with h1 | ⟨h1, -⟩
              · exact absurd h1.1 (hidle _)
              · exact absurd h1.1 (hidle _)
            · exact ⟨_, _, _, _, hj, h1, h2, fun hg => hidle .run ⟨_, _, _, _, _, hj, hg⟩⟩
    exact fun i hi => key _ i (Nat.le_refl _) hi

/-- A function that waits for the worker has called `Run`. -/
theorem waitsP_calls {size : Int} {n : PBoth E V} (h : PReach size n) {i : Nat} {s : Part} (hh : n.Waits i s) : (n.fn i s).calls := by
  refine (p_inv h).made i s fun hk => ?_
  rcases hh.2 with ⟨j, l, h3, -⟩ | ⟨-, j, hj, -⟩
  · simp [hk] at h3
  · simp [hk] at hj

/-- **C146.** If the calls with an executing function that calls `Run` – a `run` whose context is not done or a `deferFunc` – are fewer than the slots,
every call is over in the end. -/
theorem C146_over [Nonempty E] [Nonempty V] {size : Int} {n : PBoth E V} (h : PReach size n) (hc : n.w.crashed = false) (hs : ∀ n', ¬ InnerP n n') {l : List Nat} (hl : (l.length : Int) < size)
    (hrun : ∀ i ctx0 b d ph m, n.w.jobs[i]? = some (.accepted ctx0 b d ph m) → d.gor = .running → d.ctx = none → (n.fn i .run).calls → i ∈ l)
    (hdefer : ∀ i ctx0 b d m, n.w.jobs[i]? = some (.accepted ctx0 b d .executing m) → (n.fn i .deferFunc).calls → i ∈ l) {i : Nat}
    (hi : i < n.w.jobs.length) : n.Over i := by
  rcases C146_exact h hc hs with hh | ⟨-, l', h1, h2, h3⟩
  · exact hh i hi
  · exfalso
    have : l'.length ≤ l.length := by
      refine (List.subperm_of_subset h1 fun x hx => ?_).length_le
      rcases h3 x hx with a | ⟨a, _, _, _, _, hj, hx⟩
      · obtain ⟨_, _, _, _, hj⟩ := a.1
        exact hdefer _ _ _ _ _ hj (waitsP_calls h a)
      · obtain ⟨_, _, _, _, _, hj', hg⟩ := a.1
        rw [hj] at hj'
        simp only [Option.some.injEq, Job.accepted.injEq] at hj'
        obtain ⟨_, _, rfl, _, _⟩ := hj'
        exact hrun _ _ _ _ _ _ hj hg hx (waitsP_calls h a)
    omega

/-- **C146.** If all contexts are done and no executing `deferFunc` calls `Run`, every call is over in the end – also where `run`s have called `Run`. -/
theorem C146_cancelled [Nonempty E] [Nonempty V] {size : Int} {n : PBoth E V} (h : PReach size n) (hsize : 1 ≤ size) (hc : n.w.crashed = false) (hs : ∀ n', ¬ InnerP n n')
    (hd : ∀ ctx0 b d ph m, .accepted ctx0 b d ph m ∈ n.w.jobs → d.ctx ≠ none)
    (hdefer : ∀ i ctx0 b d m, n.w.jobs[i]? = some (.accepted ctx0 b d .executing m) → ¬ (n.fn i .deferFunc).calls) {i : Nat} (hi : i < n.w.jobs.length) :
    n.Over i :=
  C146_over h hc hs (l := []) (by simp; omega) (fun _ _ _ _ _ _ hj _ hx _ => absurd hx (hd _ _ _ _ _ (List.mem_of_getElem? hj)))
    (fun _ _ _ _ _ hj hc => absurd hc (hdefer _ _ _ _ _ hj)) hi

/-! ### The model of C145 is a part of this one -/

/-- The code of `Both.lean` as code of this model. -/
def Body.mayPanic : Body → PBody
  | .ret => .ret
  | .run r d k => .run r.mayPanic d.mayPanic k.mayPanic
  | .wait k => .wait k.mayPanic

/-- The state of `Both.lean` as a state of this model. -/
def Both.mayPanic (n : Both E V) : PBoth E V := ⟨n.w, fun i s => (n.fn i s).mayPanic, fun i s => (n.code i s).mayPanic, n.kids⟩

theorem mayPanic_upd (f : Nat → Part → Body) (i : Nat) (s : Part) (a : Body) :
    (fun x t => (upd2 f i s a x t).mayPanic) = upd2 (fun x t => (f x t).mayPanic) i s a.mayPanic := by
  funext x t
  simp only [upd2]
  split <;> rfl

theorem mayPanic_start (n : Both E V) (r d : Body) (ctx : Option E) : (n.start r d ctx).mayPanic = n.mayPanic.start r.mayPanic d.mayPanic ctx := by
  simp only [Both.mayPanic, Both.start, PBoth.start, mayPanic_upd]

/-- **C146.** The executions of C145, and so those of C125 and C144, are executions of C146 in which no function panics. -/
theorem C146_has_C145 {size : Int} {n : Both E V} (h : BReach size n) : PReach size n.mayPanic := by
  induction h with
  | init hw => exact .init hw
  | call r d ctx h hc ih => rw [mayPanic_start]; exact ih.call _ _ ctx hc
  | @cancel n _ h hs ih =>
    refine ih.cancel ?_
    cases hs with
    | pending i b e hc hj => exact .pending n.mayPanic i b e hc hj
    | accepted i ctx0 b d ph m e hc hj hx => exact .accepted n.mayPanic i ctx0 b d ph m e hc hj hx
  | @inner n _ h hs ih =>
    refine ih.inner ?_
    have act : ∀ {i s}, n.active i s → n.mayPanic.active i s := fun {i s} ha => by cases s <;> exact ha
    cases hs with
    | own w' ho => exact .own n.mayPanic w' ho
    | run i s r d k ctx hc hr hn hk =>
      rw [mayPanic_start]
      have := InnerP.run n.mayPanic i s r.mayPanic d.mayPanic k.mayPanic ctx hc (act hr) hn (by simp [Both.mayPanic, hk, Body.mayPanic])
      simp only [Both.mayPanic, mayPanic_upd] at this ⊢
      exact this
    | wait i s k hc hr hn hk hd =>
      have := InnerP.wait n.mayPanic i s k.mayPanic hc (act hr) hn (by simp [Both.mayPanic, hk, Body.mayPanic]) hd
      simp only [Both.mayPanic, mayPanic_upd] at this ⊢
      exact this
    | runReturns i ctx0 b d ph m e hc hj hg hn hk => exact .runReturns n.mayPanic i ctx0 b d ph m e hc hj hg hn (by simp [Both.mayPanic, hk, Body.mayPanic])
    | deferReturns i ctx0 b d m hc hj hn hk => exact .deferReturns n.mayPanic i ctx0 b d m hc hj hn (by simp [Both.mayPanic, hk, Body.mayPanic])

/-! ## Examples -/

/-- Proof only: nobody is inside a call of `Run` if no call waits. -/
theorem not_inRunP {n : PBoth E V} {i : Nat} {s : Part} (h : ∀ ctx b, .pending ctx b ∉ n.w.jobs) : ¬ n.inRun i s := by
  rintro ⟨j, l, -, ctx, b, hj⟩
  exact h ctx b (List.mem_of_getElem? hj)

/-- `run` of call 0 has called `Run` and has panicked. Its context had become done before, so that nobody has seen the panic; all calls are over. -/
def lostP : PBoth Nat Nat :=
  ⟨⟨⟨[], 1, false⟩, [.accepted none false ⟨some 7, Chan.make 1, ⟨[4], 1, false⟩, .left (.err 7), .ended (.panicked 4), 1, true⟩ .after 1,
    .accepted (some 8) false ⟨some 8, Chan.make 1, Chan.make 1, .left (.err 8), .none, 1, false⟩ .after 1], false⟩,
    upd2 (fun _ _ => .ret) 0 .run (.run .ret .ret .panic), upd2 (fun _ _ => .ret) 0 .run .panic, upd2 (fun _ _ => []) 0 .run [1]⟩

theorem demoLostP : PReach 1 lostP := by
  have h0 : PReach 1 (⟨⟨Chan.make 1, [], false⟩, fun _ _ => .ret, fun _ _ => .ret, fun _ _ => []⟩ : PBoth Nat Nat) := .init rfl
  have g1 := h0.call (.run .ret .ret .panic) .ret none rfl
  have g2 := g1.inner (.own _ _ (.accept _ 0 none false _ rfl rfl rfl))
  have g3 := g2.inner (.own _ _ (.doOwn _ 0 none false _ _ .before 0 rfl rfl ⟨.entryGo _ rfl rfl, rfl, id⟩ (by simp)))
  have g4 := g3.inner (.own _ _ (.doOwn _ 0 none false _ _ .before 0 rfl rfl ⟨.spawn _ rfl, rfl, fun _ => rfl⟩ (by simp)))
  have g5 := g4.inner (.run _ 0 .run .ret .ret .panic none rfl ⟨_, _, _, _, _, rfl, rfl⟩ (by rintro ⟨j, l, e, _⟩; exact absurd e (by simp [upd2, PBoth.start])) rfl)
  have h1 := g5.cancel (.accepted _ 0 none false _ .before 0 7 rfl rfl rfl)
  have h2 := h1.cancel (.pending _ 1 false 8 rfl rfl)
  have h3 := h2.inner (.own _ _ (.doOwn _ 0 none false _ _ .before 0 rfl rfl ⟨.recvCtx _ 7 rfl rfl, rfl, id⟩ (by simp)))
  have h4 := h3.inner (.own _ _ (.deferCall _ 0 none _ 0 _ rfl rfl rfl))
  have h5 := h4.inner (.deferReturns _ 0 none false _ 1 rfl rfl (by rintro ⟨j, l, e, _⟩; exact absurd e (by simp [upd2, PBoth.start])) rfl)
  have h6 := h5.inner (.own _ _ (.release _ 0 none false _ _ 1 _ _ rfl rfl rfl rfl (.leave _ _ rfl) rfl))
  have h7 := h6.inner (.own _ _ (.accept _ 1 (some 8) false _ rfl rfl rfl))
  have h8 := h7.inner (.own _ _ (.doOwn _ 1 (some 8) false _ _ .before 0 rfl rfl ⟨.entryDone _ 8 rfl rfl, rfl, id⟩ (by simp)))
  have h9 := h8.inner (.own _ _ (.deferCall _ 1 (some 8) _ 0 _ rfl rfl rfl))
  have h10 := h9.inner (.deferReturns _ 1 (some 8) false _ 1 rfl rfl (by rintro ⟨j, l, e, _⟩; exact absurd e (by simp [upd2, PBoth.start])) rfl)
  have h11 := h10.inner (.own _ _ (.release _ 1 (some 8) false _ _ 1 _ _ rfl rfl rfl rfl (.leave _ _ rfl) rfl))
  have h12 := h11.inner (.runPanics _ 0 none false _ .after 1 4 rfl rfl rfl (not_inRunP fun ctx b hm => by simp [PBoth.start] at hm) rfl)
  have h13 := h12.inner (.own _ _ (.doOwn _ 0 none false _ _ .after 1 rfl rfl ⟨.deliverPanic _ 4 _ rfl rfl, rfl, fun h => by simp at h⟩ (by simp)))
  refine cast (congrArg _ ?_) h13
  simp only [lostP, PBoth.start, PBoth.mk.injEq]
  refine ⟨rfl, ?_, ?_, ?_⟩ <;> (funext i s; rcases i with _ | _ | i <;> cases s <;> rfl)

theorem lostP_idle (i : Nat) (s : Part) : ¬ lostP.active i s := by
  rcases i with _ | _ | i <;> cases s <;> simp [PBoth.active, Worker.runs, Worker.finishing, lostP]

theorem lostP_stuck (n' : PBoth Nat Nat) : ¬ InnerP lostP n' := by
  intro hs
  cases hs with
  | own w' ho =>
    cases ho with
    | accept i ctx b c h1 h2 h3 => rcases i with _ | _ | i <;> simp [lostP] at h2
    | doOwn i ctx0 b d d' ph m h1 h2 h3 h4 =>
      obtain ⟨g1, g2, g3⟩ := h3
      rcases i with _ | _ | i <;> simp [lostP] at h2
      · obtain ⟨-, -, rfl, -⟩ := h2
        cases g1 <;> simp_all
      · obtain ⟨-, -, rfl, -⟩ := h2
        cases g1 <;> simp_all
    | deferCall i ctx0 d m o h1 h2 h3 => rcases i with _ | _ | i <;> simp [lostP] at h2
    | deferNil i ctx0 d m o h1 h2 h3 => rcases i with _ | _ | i <;> simp [lostP] at h2
    | release i ctx0 b d d' m c o h1 h2 h3 =>
      rcases i with _ | _ | i <;> simp [lostP] at h2
      · obtain ⟨-, -, rfl, -⟩ := h2; simp at h3
      · obtain ⟨-, -, rfl, -⟩ := h2; simp at h3
  | run i s r d k ctx hc hr hn hk => exact lostP_idle _ _ hr
  | wait i s k hc hr hn hk hd => exact lostP_idle _ _ hr
  | runReturns i ctx0 b d ph m e hc hj hg hn hk => exact lostP_idle i .run ⟨_, _, _, _, _, hj, hg⟩
  | deferReturns i ctx0 b d m hc hj hn hk => exact lostP_idle i .deferFunc ⟨_, _, _, _, hj⟩
  | runPanics i ctx0 b d ph m v hc hj hg hn hk => exact lostP_idle i .run ⟨_, _, _, _, _, hj, hg⟩
  | deferPanics i ctx0 b d m hc hj hn hk => exact lostP_idle i .deferFunc ⟨_, _, _, _, hj⟩

/-- **C146.** Not every panic ends the program: one of a `run` whose context was done before is lost, and every call is over nevertheless. -/
theorem C146_lost : ∃ n : PBoth Nat Nat, PReach 1 n ∧ n.w.crashed = false ∧ n.Over 0 ∧ n.Over 1 ∧
    ∃ ctx0 b d ph m, n.w.jobs[0]? = some (.accepted ctx0 b d ph m) ∧ d.gor = .ended (.panicked 4) :=
  ⟨lostP, demoLostP, rfl, ⟨_, _, _, _, rfl, rfl, .inl rfl, by simp⟩, ⟨_, _, _, _, rfl, rfl, .inl rfl, by simp⟩, _, _, _, _, _, rfl, rfl⟩

/-- **C146.** A panic of a `run` that has called `Run` ends the program although the call it has made is not over. -/
theorem C146_panic : ∃ n : PBoth Nat Nat, PReach 2 n ∧ n.w.crashed = true ∧ n.kids 0 .run = [1] ∧ n.w.runs 1 := by
  have h0 : PReach 2 (⟨⟨Chan.make 2, [], false⟩, fun _ _ => .ret, fun _ _ => .ret, fun _ _ => []⟩ : PBoth Nat Nat) := .init rfl
  have g1 := h0.call (.run .ret .ret .panic) .ret none rfl
  have g2 := g1.inner (.own _ _ (.accept _ 0 none false _ rfl rfl rfl))
  have g3 := g2.inner (.own _ _ (.doOwn _ 0 none false _ _ .before 0 rfl rfl ⟨.entryGo _ rfl rfl, rfl, id⟩ (by simp)))
  have g4 := g3.inner (.own _ _ (.doOwn _ 0 none false _ _ .before 0 rfl rfl ⟨.spawn _ rfl, rfl, fun _ => rfl⟩ (by simp)))
  have g5 := g4.inner (.run _ 0 .run .ret .ret .panic none rfl ⟨_, _, _, _, _, rfl, rfl⟩ (by rintro ⟨j, l, e, _⟩; exact absurd e (by simp [upd2, PBoth.start])) rfl)
  have h2 := g5.inner (.own _ _ (.accept _ 1 none false _ rfl rfl rfl))
  have h3 := h2.inner (.own _ _ (.doOwn _ 1 none false _ _ .before 0 rfl rfl ⟨.entryGo _ rfl rfl, rfl, id⟩ (by simp)))
  have h4 := h3.inner (.own _ _ (.doOwn _ 1 none false _ _ .before 0 rfl rfl ⟨.spawn _ rfl, rfl, fun _ => rfl⟩ (by simp)))
  have h5 := h4.inner (.runPanics _ 0 none false _ .before 0 5 rfl rfl rfl (not_inRunP fun ctx b hm => by simp [PBoth.start] at hm) rfl)
  have h6 := h5.inner (.own _ _ (.doOwn _ 0 none false _ _ .before 0 rfl rfl ⟨.deliverPanic _ 5 _ rfl rfl, rfl, fun h => by simp at h⟩ (by simp)))
  have h7 := h6.inner (.own _ _ (.doOwn _ 0 none false _ _ .before 0 rfl rfl ⟨.recvPanic _ 5 _ rfl rfl, rfl, id⟩ (by simp)))
  have h8 := h7.inner (.own _ _ (.deferCall _ 0 none _ 0 _ rfl rfl rfl))
  have h9 := h8.inner (.deferReturns _ 0 none false _ 1 rfl rfl (by rintro ⟨j, l, e, _⟩; exact absurd e (by simp [upd2, PBoth.start])) rfl)
  have h10 := h9.inner (.own _ _ (.release _ 0 none false _ _ 1 _ _ rfl rfl rfl rfl (.leave _ _ rfl) rfl))
  exact ⟨_, h10, rfl, rfl, _, _, _, _, _, rfl, rfl⟩

example : WReach 1 lostP.w := C146_worker demoLostP
example : ∃ n : PBoth Nat Nat, n.w.crashed = true ∧ ∃ i ctx0 b d ph m, n.w.jobs[i]? = some (.accepted ctx0 b d ph m) ∧
    (ph = .panicked ∧ n.code i .deferFunc = .panic ∨ ∃ v, d.caller = .left (.panic v) ∧ d.gor = .ended (.panicked v) ∧ n.code i .run = .panic) := by
  obtain ⟨n, h, hc, _⟩ := C146_panic
  exact ⟨n, hc, (C146_crash h).mp hc⟩
example : mixed.mayPanic.w.crashed = false := C146_no_crash (C146_has_C145 mixed_reach) fun i s hp => by
  rcases i with _ | _ | i <;> cases s <;> simp [Both.mayPanic, mixed, upd2, Body.mayPanic, PBody.panics] at hp
example : Acc (fun n' n => InnerP n n' ∨ CancelsP n n') lostP := C146_ends _
example : (∀ i, i < 2 → lostP.Over i) ∨ (∃ i, lostP.w.waiting i) ∧ ∃ l : List Nat, l.Nodup ∧ (l.length : Int) = 1 ∧ ∀ i ∈ l, lostP.Holds i :=
  C146_exact demoLostP rfl lostP_stuck
example : lostP.Over 0 := C146_over demoLostP rfl lostP_stuck (l := []) (by decide)
  (fun i _ _ _ _ _ hj hg => absurd ⟨_, _, _, _, _, hj, hg⟩ (lostP_idle i .run)) (fun i _ _ _ _ hj => absurd ⟨_, _, _, _, hj⟩ (lostP_idle i .deferFunc)) (by decide)
example : lostP.Over 1 := by
  refine C146_cancelled demoLostP (by decide) rfl lostP_stuck ?_ (fun i _ _ _ _ hj => absurd ⟨_, _, _, _, hj⟩ (lostP_idle i .deferFunc)) (by decide)
  intro ctx0 b d ph m hj
  simp only [lostP, List.mem_cons, List.not_mem_nil, or_false, Job.accepted.injEq] at hj
  rcases hj with ⟨_, _, rfl, _⟩ | ⟨_, _, rfl, _⟩ <;> simp

end Verif.XWorker

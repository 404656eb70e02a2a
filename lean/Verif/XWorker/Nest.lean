import Verif.XWorker.Ends
import Mathlib.Data.List.Induction
import Mathlib.Data.List.Perm.Subperm
/-!
# Functions given to a `Worker` that call `Run` of the same `Worker` (C125)

The model of `xworker/xworker.go` of `Model.lean`, together with the code of the functions given to `Run`. A function makes calls of `Run` on the
worker that executes it, in any number and with functions that do the same, to any depth; between them it may wait until the `deferFunc`s of all the
calls it has made so far have returned (a `sync.WaitGroup` with `Done` in `deferFunc`); then it returns. Simplifications: functions do not panic,
`deferFunc` is not nil, returns and makes no calls of the worker.
-/
namespace Verif.XWorker
open Verif.Go Verif.XTask

variable {E V : Type}

/-! ## Model -/

/-- The code of a function given to `Run` as far as the worker is concerned. -/
inductive Code where
  | ret
  /-- `w.Run(ctx, f, deferFunc)` and then `k` -/
  | run (f k : Code)
  /-- wait until the `deferFunc`s of all calls made so far have returned, and then `k` -/
  | wait (k : Code)
  deriving DecidableEq

/-- The function makes a call of `Run`. -/
def Code.calls : Code → Bool
  | .ret => false
  | .run _ _ => true
  | .wait k => k.calls

/-- Specification of `Code.calls`: a function comes to `q`. -/
inductive Code.Later : Code → Code → Prop
  | refl (p : Code) : Later p p
  | run (f k q : Code) : Later k q → Later (.run f k) q
  | wait (k q : Code) : Later k q → Later (.wait k) q

/-- `Code.calls` tells exactly whether the function comes to a call of `Run`. -/
theorem calls_iff (p : Code) : p.calls = true ↔ ∃ f k, p.Later (.run f k) := by
  induction p with
  | ret =>
    refine ⟨by simp [Code.calls], ?_⟩
    rintro ⟨f, k, h⟩
    cases h
  | run f k _ _ => exact ⟨fun _ => ⟨f, k, .refl _⟩, fun _ => rfl⟩
  | wait k ih =>
    rw [Code.calls, ih]
    constructor
    · rintro ⟨f, k', h⟩; exact ⟨f, k', .wait _ _ h⟩
    · rintro ⟨f, k', h⟩
      cases h with
      | wait _ _ h => exact ⟨f, k', h⟩

/-- The last thing the function does is to wait for its calls. -/
def Code.joins : Code → Bool
  | .ret => false
  | .run _ k => k.joins
  | .wait .ret => true
  | .wait k => k.joins

/-- A worker and the functions given to it, which are named by the index of the call of `Run`. -/
structure Nest (E V : Type) where
  w : Worker E V
  /-- the function given to the call -/
  fn : Nat → Code
  /-- what it still has to do -/
  code : Nat → Code
  /-- the calls of `Run` it has made, the last one first -/
  kids : Nat → List Nat

/-- Change of one value of a function. -/
def upd {α : Type} (f : Nat → α) (i : Nat) (a : α) : Nat → α := fun j => if j = i then a else f j

/-- The function given to call `i` is executing. -/
def Nest.runs (n : Nest E V) (i : Nat) : Bool :=
  match n.w.jobs[i]? with
  | some (.accepted _ _ d _ _) => match d.gor with
    | .running => true
    | _ => false
  | _ => false

/-- Call `i` of `Run` has not returned yet (xworker.go:37). -/
def Nest.pending (n : Nest E V) (i : Nat) : Bool :=
  match n.w.jobs[i]? with
  | some (.pending _ _) => true
  | _ => false

/-- The `deferFunc` of call `i` has returned. -/
def Nest.deferred (n : Nest E V) (i : Nat) : Bool :=
  match n.w.jobs[i]? with
  | some (.accepted _ _ _ .after _) => true
  | _ => false

/-- The function is inside a call of `Run`. -/
def Nest.inRun (n : Nest E V) (i : Nat) : Bool :=
  match n.kids i with
  | j :: _ => n.pending j
  | [] => false

/-- A call of `Run` with the function `f`: xworker.go:36-37. -/
def Nest.start (n : Nest E V) (f : Code) (ctx : Option E) : Nest E V :=
  { w := { n.w with jobs := n.w.jobs ++ [.pending ctx false] }, fn := upd n.fn n.w.jobs.length f, code := upd n.code n.w.jobs.length f,
    kids := upd n.kids n.w.jobs.length [] }

/-- What the worker and the functions in it do: xworker.go:36-48 together with the code of the functions. -/
inductive Inner : Nest E V → Nest E V → Prop where
  /-- a step of the worker itself -/
  | own (n : Nest E V) (w' : Worker E V) : Own n.w w' → Inner n { n with w := w' }
  /-- a `deferFunc` returns -/
  | deferReturns (n : Nest E V) (i : Nat) (ctx0 : Option E) (b : Bool) (d : DoSt E V) (m : Nat) : n.w.crashed = false →
      n.w.jobs[i]? = some (.accepted ctx0 b d .executing m) → Inner n { n with w := { n.w with jobs := n.w.jobs.set i (.accepted ctx0 b d .after m) } }
  /-- a function calls `Run` -/
  | run (n : Nest E V) (i : Nat) (f k : Code) (ctx : Option E) : n.w.crashed = false → n.runs i = true → n.inRun i = false → n.code i = .run f k →
      Inner n ({ n with code := upd n.code i k, kids := upd n.kids i (n.w.jobs.length :: n.kids i) }.start f ctx)
  /-- a function has waited for the `deferFunc`s of its calls -/
  | wait (n : Nest E V) (i : Nat) (k : Code) : n.w.crashed = false → n.runs i = true → n.inRun i = false → n.code i = .wait k →
      (∀ j ∈ n.kids i, n.deferred j = true) → Inner n { n with code := upd n.code i k }
  /-- a function returns -/
  | returns (n : Nest E V) (i : Nat) (ctx0 : Option E) (b : Bool) (d : DoSt E V) (ph : Phase) (m : Nat) (e : E) : n.w.crashed = false →
      n.w.jobs[i]? = some (.accepted ctx0 b d ph m) → d.gor = .running → n.inRun i = false → n.code i = .ret →
      Inner n { n with w := { n.w with jobs := n.w.jobs.set i (.accepted ctx0 b { d with gor := .finished (.returned e) } ph m) } }

/-- A context becomes done: that of a waiting or of an accepted call. -/
inductive Cancels : Nest E V → Nest E V → Prop where
  | pending (n : Nest E V) (i : Nat) (b : Bool) (e : E) : n.w.crashed = false → n.w.jobs[i]? = some (.pending none b) →
      Cancels n { n with w := { n.w with jobs := n.w.jobs.set i (.pending (some e) b) } }
  | accepted (n : Nest E V) (i : Nat) (ctx0 : Option E) (b : Bool) (d : DoSt E V) (ph : Phase) (m : Nat) (e : E) : n.w.crashed = false →
      n.w.jobs[i]? = some (.accepted ctx0 b d ph m) → d.ctx = none →
      Cancels n { n with w := { n.w with jobs := n.w.jobs.set i (.accepted ctx0 b { d with ctx := some e } ph m) } }

/-- All executions: `Run` is called from outside with any function, and everything else happens in any order. -/
inductive NReach (size : Int) : Nest E V → Prop where
  | init {w : Worker E V} : newWorker size = some w → NReach size ⟨w, fun _ => .ret, fun _ => .ret, fun _ => []⟩
  | call {n : Nest E V} (f : Code) (ctx : Option E) : NReach size n → n.w.crashed = false → NReach size (n.start f ctx)
  | cancel {n n' : Nest E V} : NReach size n → Cancels n n' → NReach size n'
  | inner {n n' : Nest E V} : NReach size n → Inner n n' → NReach size n'

/-! ## Specification -/

/-- The function given to call `i` holds its slot and waits for the worker: it is executing, its context is not done, and it is inside a call of
`Run` that has found no free slot, or it waits for the `deferFunc` of a call it has made. -/
def Nest.Holds (n : Nest E V) (i : Nat) : Prop :=
  (∃ ctx0 b d m, n.w.jobs[i]? = some (.accepted ctx0 b d .before m) ∧ d.gor = .running ∧ d.ctx = none) ∧
  (n.inRun i = true ∨ (∃ k, n.code i = .wait k) ∧ ∃ j ∈ n.kids i, n.deferred j = false)

/-- Call `i` is over: the function has returned or was not called as its context was done, `deferFunc` has been called once and has returned, the
slot is free. -/
def Nest.Over (n : Nest E V) (i : Nat) : Prop :=
  ∃ ctx0 b d e, n.w.jobs[i]? = some (.accepted ctx0 b d .after 1) ∧ d.caller = .left (.err e) ∧ (d.ctx = some e ∨ d.gor = .ended (.returned e)) ∧
    n.runs i = false

/-! ## Proofs -/

@[simp] theorem upd_self {α : Type} (f : Nat → α) (i : Nat) (a : α) : upd f i a i = a := by simp [upd]

theorem upd_ne {α : Type} (f : Nat → α) {i j : Nat} (a : α) (h : j ≠ i) : upd f i a j = f j := by simp [upd, h]

theorem inner_w {n n' : Nest E V} (h : Inner n n') : WStep n.w n'.w ∨ n'.w = n.w := by
  cases h with
  | own w' h => exact .inl (step_iff.mpr (.inl h))
  | deferReturns i ctx0 b d m hc hj => exact .inl (.deferReturn _ _ _ _ _ _ hc hj)
  | run i f k ctx hc hr hn hk => exact .inl (.call _ ctx false hc)
  | wait i k hc hr hn hk hd => exact .inr rfl
  | returns i ctx0 b d ph m e hc hj hg hn hk => exact .inl (step_iff.mpr (.inr (.runEnds _ _ _ _ _ _ _ _ hc hj hg)))

theorem cancels_w {n n' : Nest E V} (h : Cancels n n') : WStep n.w n'.w := by
  cases h with
  | pending i b e hc hj => exact .cancel _ _ _ _ hc hj
  | accepted i ctx0 b d ph m e hc hj hx => exact step_iff.mpr (.inr (.cancel _ _ _ _ _ _ _ _ hc hj hx))

/-- **C125.** The worker does what it does with any other functions: the states of the worker are states of the model of C13, C14, C78 and C116. -/
theorem C125_worker {size : Int} {n : Nest E V} (h : NReach size n) : WReach size n.w := by
  induction h with
  | init hw => exact .init hw
  | call f ctx h hc ih => exact ih.step (.call _ ctx false hc)
  | cancel h hs ih => exact ih.step (cancels_w hs)
  | inner h hs ih =>
    rcases inner_w hs with hw | hw
    · exact ih.step hw
    · rw [hw]; exact ih

/-- The functions do not panic and `deferFunc` is not nil. -/
def Clean : Job E V → Prop
  | .pending _ b => b = false
  | .accepted _ b d ph _ => b = false ∧ ph ≠ .panicked ∧ ∀ o, d.gor = .finished o ∨ d.gor = .ended o → ∃ e, o = .returned e

theorem clean_set {l : List (Job E V)} {i : Nat} {a : Job E V} (h : ∀ j ∈ l, Clean j) (ha : Clean a) : ∀ j ∈ l.set i a, Clean j := by
  intro j hj
  rcases mem_set hj with hj | rfl
  · exact h j hj
  · exact ha

theorem clean_do {d d' : DoSt E V} (h : DoStep true d d') (hf : d.gor = .running → d'.gor = .running)
    (hc : ∀ o, d.gor = .finished o ∨ d.gor = .ended o → ∃ e, o = .returned e) :
    ∀ o, d'.gor = .finished o ∨ d'.gor = .ended o → ∃ e, o = .returned e := by
  cases h <;> simp_all

theorem clean_own {w w' : Worker E V} (h : Own w w') (hc : ∀ j ∈ w.jobs, Clean j) : ∀ j ∈ w'.jobs, Clean j := by
  cases h with
  | accept i ctx b c h1 h2 h3 => exact clean_set hc ⟨hc _ (List.mem_of_getElem? h2), by simp, by simp [doInit]⟩
  | doOwn i ctx0 b d d' ph m h1 h2 h3 h4 =>
    obtain ⟨c1, c2, c3⟩ := hc _ (List.mem_of_getElem? h2)
    exact clean_set hc ⟨c1, c2, clean_do h3.1 h3.2.2 c3⟩
  | deferCall i ctx0 d m o h1 h2 h3 =>
    obtain ⟨c1, c2, c3⟩ := hc _ (List.mem_of_getElem? h2)
    exact clean_set hc ⟨c1, by simp, c3⟩
  | deferNil i ctx0 d m o h1 h2 h3 => exact absurd (hc _ (List.mem_of_getElem? h2)).1 (by simp)
  | release i ctx0 b d d' m c o h1 h2 h3 h4 h5 h6 =>
    obtain ⟨c1, c2, c3⟩ := hc _ (List.mem_of_getElem? h2)
    exact clean_set hc ⟨c1, c2, clean_do h5 (by cases h5 <;> simp_all) c3⟩

theorem length_own {w w' : Worker E V} (h : Own w w') : w'.jobs.length = w.jobs.length := by
  cases h <;> simp

theorem runs_iff {n : Nest E V} {i : Nat} : n.runs i = true ↔ ∃ ctx0 b d ph m, n.w.jobs[i]? = some (.accepted ctx0 b d ph m) ∧ d.gor = .running := by
  unfold Nest.runs
  constructor
  · intro h
    split at h
    · rename_i ctx0 b d ph m hj
      refine ⟨_, _, _, _, _, hj, ?_⟩
      split at h
      · assumption
      · simp at h
    · simp at h
  · rintro ⟨ctx0, b, d, ph, m, hj, hg⟩
    simp [hj, hg]

theorem runs_lt {n : Nest E V} {i : Nat} (h : n.runs i = true) : i < n.w.jobs.length := by
  obtain ⟨_, _, _, _, _, hj, _⟩ := runs_iff.mp h
  exact (List.getElem?_eq_some_iff.mp hj).1

/-- Proof only: part of an invariant or simulation; models no code. -/
structure NInv (n : Nest E V) : Prop where
  clean : ∀ j ∈ n.w.jobs, Clean j
  kids : ∀ i, ∀ j ∈ n.kids i, i < j ∧ j < n.w.jobs.length
  code : ∀ i, (n.code i).calls = true → (n.fn i).calls = true
  made : ∀ i, n.kids i ≠ [] → (n.fn i).calls = true

theorem NInv.start {n : Nest E V} {kids : Nat → List Nat} {code : Nat → Code} (h : NInv n) (f : Code) (ctx : Option E)
    (hk : ∀ i, ∀ j ∈ kids i, i < j ∧ j < n.w.jobs.length + 1) (hc : ∀ i, (code i).calls = true → (n.fn i).calls = true)
    (hm : ∀ i, kids i ≠ [] → (n.fn i).calls = true) : NInv ({ n with code := code, kids := kids }.start f ctx) where
  clean := by
    intro j hj
    rcases List.mem_append.mp hj with hj | hj
    · exact h.clean j hj
    · simp only [List.mem_singleton] at hj; subst hj; rfl
  kids := by
    intro i j hj
    simp only [Nest.start, upd] at hj
    split at hj
    · simp at hj
    · have := hk i j hj
      simp only [Nest.start, List.length_append, List.length_singleton]; exact this
  code := by
    intro i hi
    simp only [Nest.start, upd] at hi ⊢
    split at hi
    · rename_i e; simpa [e] using hi
    · rename_i e; simpa [e] using hc i hi
  made := by
    intro i hi
    simp only [Nest.start, upd] at hi ⊢
    split at hi
    · simp at hi
    · rename_i e; simpa [e] using hm i hi

theorem n_inv {size : Int} {n : Nest E V} (h : NReach size n) : NInv n := by
  induction h with
  | init hw =>
    unfold newWorker at hw
    split at hw
    · simp at hw
    · simp only [Option.some.injEq] at hw; subst hw
      exact ⟨by simp, by simp, by simp [Code.calls], by simp⟩
  | @call n f ctx h hc ih =>
    exact NInv.start (n := n) ih f ctx (fun i j hj => by have := ih.kids i j hj; omega) ih.code ih.made
  | cancel h hs ih =>
    cases hs with
    | pending i b e hc hj =>
      exact ⟨clean_set ih.clean (a := .pending (some e) b) (ih.clean (.pending none b) (List.mem_of_getElem? hj)), by simpa using ih.kids, ih.code, ih.made⟩
    | accepted i ctx0 b d ph m e hc hj hx =>
      obtain ⟨c1, c2, c3⟩ := ih.clean _ (List.mem_of_getElem? hj)
      exact ⟨clean_set ih.clean ⟨c1, c2, c3⟩, by simpa using ih.kids, ih.code, ih.made⟩
  | inner h hs ih =>
    cases hs with
    | own w' ho => exact ⟨clean_own ho ih.clean, by simpa [length_own ho] using ih.kids, ih.code, ih.made⟩
    | deferReturns i ctx0 b d m hc hj =>
      obtain ⟨c1, c2, c3⟩ := ih.clean _ (List.mem_of_getElem? hj)
      exact ⟨clean_set ih.clean ⟨c1, by simp, c3⟩, by simpa using ih.kids, ih.code, ih.made⟩
    | run i f k ctx hc hr hn hk =>
      have hf : (_ : Code).calls = true := ih.code i (by rw [hk]; rfl)
      refine NInv.start ih f ctx (fun x j hj => ?_) (fun x hx => ?_) (fun x hx => ?_)
      · simp only [upd] at hj
        split at hj
        · rename_i e
          rcases List.mem_cons.mp hj with rfl | hj
          · exact ⟨e ▸ runs_lt hr, Nat.lt_succ_self _⟩
          · have := ih.kids i j hj; omega
        · have := ih.kids x j hj; omega
      · simp only [upd] at hx
        split at hx
        · rename_i e; rw [e]; exact hf
        · exact ih.code x hx
      · simp only [upd] at hx
        split at hx
        · rename_i e; rw [e]; exact hf
        · exact ih.made x hx
    | wait i k hc hr hn hk hd =>
      refine ⟨ih.clean, ih.kids, fun x hx => ?_, ih.made⟩
      simp only [upd] at hx
      split at hx
      · rename_i e; rw [e]; exact ih.code i (by rw [hk]; exact hx)
      · exact ih.code x hx
    | returns i ctx0 b d ph m e hc hj hg hn hk =>
      obtain ⟨c1, c2, c3⟩ := ih.clean _ (List.mem_of_getElem? hj)
      exact ⟨clean_set ih.clean ⟨c1, c2, by simp⟩, by simpa using ih.kids, ih.code, ih.made⟩

theorem not_crashed {size : Int} {n : Nest E V} (h : NReach size n) : n.w.crashed = false := by
  refine C78_no_crash_partial (C125_worker h) fun ctx0 b d ph m hj => ?_
  obtain ⟨c1, c2, c3⟩ := (n_inv h).clean _ hj
  refine ⟨c2, fun p hp => ?_⟩
  obtain ⟨e, he⟩ := c3 _ (.inr hp)
  simp at he

/-! ### Every execution ends -/

/-- Proof only: part of a measure; models no code. -/
def Code.weight : Code → Nat
  | .ret => 0
  | .run f k => 14 + f.weight + k.weight
  | .wait k => 1 + k.weight

/-- Proof only: the sum of the weights of what the functions have still to do. -/
def codes (c : Nat → Code) : Nat → Nat
  | 0 => 0
  | m + 1 => codes c m + (c m).weight

/-- Proof only: part of a measure; models no code. -/
def Nest.weight (n : Nest E V) : Nat := n.w.weight + codes n.code n.w.jobs.length

theorem codes_congr {c c' : Nat → Code} : ∀ m, (∀ i, i < m → c' i = c i) → codes c' m = codes c m
  | 0, _ => rfl
  | m + 1, h => by simp only [codes]; rw [codes_congr m fun i hi => h i (by omega), h m (by omega)]

theorem codes_upd {c : Nat → Code} {i : Nat} (k : Code) : ∀ m, i < m → codes (upd c i k) m + (c i).weight = codes c m + k.weight
  | 0, h => by omega
  | m + 1, h => by
    simp only [codes]
    by_cases e : i = m
    · subst e
      rw [codes_congr (c := c) i fun x hx => upd_ne c k (by omega), upd_self]; omega
    · have := codes_upd (c := c) (i := i) k m (by omega)
      rw [upd_ne c k (Ne.symm e)]; omega

theorem cancels_weight {n n' : Nest E V} (h : Cancels n n') : n'.weight < n.weight := by
  have hl : n'.w.jobs.length = n.w.jobs.length := by cases h <;> simp
  have hc : n'.code = n.code := by cases h <;> rfl
  have := weight_lt (cancels_w h) hl
  simp only [Nest.weight, hl, hc]
  omega

theorem start_weight (n : Nest E V) (f : Code) (ctx : Option E) : (n.start f ctx).weight ≤ n.weight + 13 + f.weight := by
  have h1 : codes (upd n.code n.w.jobs.length f) n.w.jobs.length = codes n.code n.w.jobs.length := codes_congr _ fun i hi => upd_ne _ _ (by omega)
  have h2 : Job.weight (.pending ctx false : Job E V) ≤ 13 := by simp only [Job.weight]; split <;> omega
  simp only [Nest.weight, Nest.start, Worker.weight, List.length_append, List.length_singleton, codes, h1, upd_self, List.map_append, List.map_cons,
    List.map_nil, List.sum_append, List.sum_cons, List.sum_nil]
  by_cases hcr : n.w.crashed = true <;> simp only [hcr, Bool.false_eq_true, if_true, if_false] <;> omega

theorem inner_weight {n n' : Nest E V} (h : Inner n n') : n'.weight < n.weight := by
  cases h with
  | own w' ho =>
    have := weight_lt (step_iff.mpr (.inl ho)) (length_own ho)
    simp only [Nest.weight, length_own ho]
    omega
  | deferReturns i ctx0 b d m hc hj =>
    have := weight_lt (.deferReturn _ _ _ _ _ _ hc hj) (by simp)
    simp only [Nest.weight, List.length_set]
    omega
  | run i f k ctx hc hr hn hk =>
    have h1 := codes_upd (c := n.code) k _ (runs_lt hr)
    have h2 := start_weight { n with code := upd n.code i k, kids := upd n.kids i (n.w.jobs.length :: n.kids i) } f ctx
    rw [hk] at h1
    simp only [Code.weight] at h1
    simp only [Nest.weight] at h2 ⊢
    omega
  | wait i k hc hr hn hk hd =>
    have h1 := codes_upd (c := n.code) k _ (runs_lt hr)
    rw [hk] at h1
    simp only [Code.weight] at h1
    simp only [Nest.weight]
    omega
  | returns i ctx0 b d ph m e hc hj hg hn hk =>
    have := weight_lt (step_iff.mpr (.inr (.runEnds _ _ _ _ _ _ _ (.returned e) hc hj hg))) (by simp)
    simp only [Nest.weight, List.length_set]
    omega

/-! ### States in which nothing happens any more -/

theorem range_filter {α : Type} (p : α → Bool) (l : List α) : ((List.range l.length).filter fun i => (l[i]?).any p).length = l.countP p := by
  induction l using List.reverseRecOn with
  | nil => rfl
  | append_singleton l a ih =>
    rw [List.length_append, List.length_singleton, List.range_succ, List.filter_append, List.length_append, List.countP_append, ← ih]
    congr 1
    · congr 1
      refine List.filter_congr fun i hi => ?_
      rw [List.getElem?_append_left (List.mem_range.mp hi)]
    · cases hp : p a <;> simp [hp]

theorem stuck_running [Nonempty E] {n : Nest E V} (hc : n.w.crashed = false) (hs : ∀ n', ¬ Inner n n') {i : Nat} (hr : n.runs i = true) :
    n.inRun i = true ∨ (∃ k, n.code i = .wait k) ∧ ∃ j ∈ n.kids i, n.deferred j = false := by
  cases hn : n.inRun i with
  | true => exact .inl rfl
  | false =>
    right
    cases hk : n.code i with
    | ret =>
      obtain ⟨ctx0, b, d, ph, m, hj, hg⟩ := runs_iff.mp hr
      exact absurd (.returns n i ctx0 b d ph m (Classical.choice ‹_›) hc hj hg hn hk) (hs _)
    | run f k => exact absurd (.run n i f k none hc hr hn hk) (hs _)
    | wait k =>
      refine ⟨⟨k, rfl⟩, Classical.byContradiction fun hno => hs _ (.wait n i k hc hr hn hk fun j hj => ?_)⟩
      cases hd : n.deferred j with
      | true => rfl
      | false => exact absurd ⟨j, hj, hd⟩ hno

theorem busy_holds [Nonempty E] {size : Int} {n : Nest E V} (h : NReach size n) (hs : ∀ n', ¬ Inner n n') {i : Nat} {j : Job E V}
    (hj : n.w.jobs[i]? = some j) (hb : j.busy = true) : n.Holds i := by
  have hc := not_crashed h
  cases j with
  | pending => simp [Job.busy] at hb
  | accepted ctx0 b d ph m =>
    have hm := List.mem_of_getElem? hj
    obtain ⟨c1, c2, c3⟩ := (n_inv h).clean _ hm
    obtain ⟨g1, g2, g3, g4⟩ := (w_inv (C125_worker h)).jobs _ hm
    have hex : ph ≠ .executing := fun e => by subst e; exact hs _ (.deferReturns n i ctx0 b d m hc hj)
    have hd : d.caller = .wait ∧ d.ctx = none ∧ d.gor = .running := by
      simp only [Job.busy] at hb
      split at hb
      · exact absurd rfl hex
      · rename_i h1 h2 h3; exact ⟨h1, h2, h3⟩
      · rename_i h1 h2 h3
        obtain ⟨e, he⟩ := c3 _ (.inr h3)
        simp at he
      · simp at hb
    have hph : ph = .before := Classical.byContradiction fun hp => by
      obtain ⟨o, ho | ho⟩ := (g3 hp).2 <;> rw [hd.1] at ho <;> simp at ho
    subst hph
    exact ⟨⟨_, _, _, _, hj, hd.2.2, hd.2.1⟩, stuck_running hc hs (runs_iff.mpr ⟨_, _, _, _, _, hj, hd.2.2⟩)⟩

/-! ## Theorems -/

/-- **C125.** Functions that call `Run` of the worker do not end the program. -/
theorem C125_no_crash {size : Int} {n : Nest E V} (h : NReach size n) : n.w.crashed = false := not_crashed h

/-- **C125.** Without new calls from outside every execution ends, whatever the schedule. -/
theorem C125_ends (n : Nest E V) : Acc (fun n' n => Inner n n' ∨ Cancels n n') n := by
  have : ∀ k, ∀ n : Nest E V, n.weight < k → Acc (fun n' n => Inner n n' ∨ Cancels n n') n := by
    intro k
    induction k with
    | zero => intro m h; omega
    | succ k ih =>
      refine fun m h => ⟨_, fun m' hs => ih m' ?_⟩
      rcases hs with hs | hs
      · have := inner_weight hs; omega
      · have := cancels_weight hs; omega
  exact this _ n (Nat.lt_succ_self _)

/-- **C125.** How an execution ends: every call is over, or a call of `Run` waits for a slot and all slots are held by functions that wait for the
worker – for a slot or for the `deferFunc` of a call they have made. -/
theorem C125_exact [Nonempty E] {size : Int} {n : Nest E V} (h : NReach size n) (hs : ∀ n', ¬ Inner n n') :
    (∀ i, i < n.w.jobs.length → n.Over i) ∨
    (∃ i, n.pending i = true) ∧ ∃ l : List Nat, l.Nodup ∧ (l.length : Int) = size ∧ ∀ i ∈ l, n.Holds i := by
  have hc := not_crashed h
  have hw := C125_worker h
  have hown : ∀ w', ¬ Own n.w w' := fun w' ho => hs _ (.own n w' ho)
  by_cases hp : ∃ i, n.pending i = true
  · right
    refine ⟨hp, (List.range n.w.jobs.length).filter fun i => (n.w.jobs[i]?).any Job.busy, (List.nodup_range).filter _, ?_, ?_⟩
    · obtain ⟨i, hi⟩ := hp
      rw [range_filter]
      unfold Nest.pending at hi
      split at hi
      · rename_i ctx b hj
        exact C116_waits hw hc hown hj
      · simp at hi
    · intro i hi
      have hb := (List.mem_filter.mp hi).2
      cases hj : n.w.jobs[i]? with
      | none => simp [hj] at hb
      | some j => exact busy_holds h hs hj (by simpa [hj] using hb)
  · left
    have key : ∀ k i, n.w.jobs.length - i ≤ k → i < n.w.jobs.length → n.Over i := by
      intro k
      induction k with
      | zero => intro i h1 h2; omega
      | succ k ih =>
        intro i hk hi
        have hkids : ∀ j ∈ n.kids i, n.deferred j = true := fun j hj => by
          have hlt := (n_inv h).kids i j hj
          obtain ⟨ctx0, b, d, e, hj', -⟩ := ih j (by omega) hlt.2
          simp [Nest.deferred, hj']
        have hin : n.inRun i = false := by
          unfold Nest.inRun
          split
          · rename_i j l e
            exact Bool.eq_false_iff.mpr fun hp' => hp ⟨j, hp'⟩
          · rfl
        have hrun : n.runs i = false := Bool.eq_false_iff.mpr fun hr => by
          rcases stuck_running hc hs hr with h1 | ⟨-, j, hj, h1⟩
          · rw [hin] at h1; simp at h1
          · rw [hkids j hj] at h1; simp at h1
        cases hj : n.w.jobs[i]? with
        | none => rw [List.getElem?_eq_none_iff] at hj; omega
        | some j =>
          cases j with
          | pending ctx b => exact absurd ⟨i, by simp [Nest.pending, hj]⟩ hp
          | accepted ctx0 b d ph m =>
            rcases C116_accepted hw hc hown hj with hb | ⟨rfl, rfl, e, h1, h2⟩
            · obtain ⟨⟨_, _, _, _, h1, h2, _⟩, _⟩ := busy_holds h hs hj hb
              rw [runs_iff.mpr ⟨_, _, _, _, _, h1, h2⟩] at hrun; simp at hrun
            · exact ⟨_, _, _, _, hj, h1, h2, hrun⟩
    exact fun i hi => key _ i (Nat.le_refl _) hi

/-- A function that holds its slot and waits for the worker has called `Run`. -/
theorem holds_calls {size : Int} {n : Nest E V} (h : NReach size n) {i : Nat} (hh : n.Holds i) : n.runs i = true ∧ (n.fn i).calls = true := by
  obtain ⟨⟨_, _, _, _, h1, h2, _⟩, h3⟩ := hh
  refine ⟨runs_iff.mpr ⟨_, _, _, _, _, h1, h2⟩, (n_inv h).made i fun hk => ?_⟩
  rcases h3 with h3 | ⟨-, j, hj, -⟩
  · simp [Nest.inRun, hk] at h3
  · simp [hk] at hj

/-- **C125.** If fewer functions that call `Run` are executing than the worker has slots, every call is over in the end. -/
theorem C125_over_partial [Nonempty E] {size : Int} {n : Nest E V} (h : NReach size n) (hs : ∀ n', ¬ Inner n n')
    (hlt : (((List.range n.w.jobs.length).filter fun i => n.runs i && (n.fn i).calls).length : Int) < size) {i : Nat} (hi : i < n.w.jobs.length) :
    n.Over i := by
  rcases C125_exact h hs with hh | ⟨-, l, h1, h2, h3⟩
  · exact hh i hi
  · exfalso
    have : l.length ≤ ((List.range n.w.jobs.length).filter fun i => n.runs i && (n.fn i).calls).length := by
      refine (List.subperm_of_subset h1 fun x hx => ?_).length_le
      obtain ⟨a, b⟩ := holds_calls h (h3 x hx)
      exact List.mem_filter.mpr ⟨List.mem_range.mpr (runs_lt a), by simp [a, b]⟩
    omega

/-- **C125.** If all contexts are done, every call is over in the end. -/
theorem C125_cancelled [Nonempty E] {size : Int} {n : Nest E V} (h : NReach size n) (hsize : 1 ≤ size) (hs : ∀ n', ¬ Inner n n')
    (hd : ∀ ctx0 b d ph m, .accepted ctx0 b d ph m ∈ n.w.jobs → d.ctx ≠ none) {i : Nat} (hi : i < n.w.jobs.length) : n.Over i := by
  rcases C125_exact h hs with hh | ⟨-, l, h1, h2, h3⟩
  · exact hh i hi
  · cases l with
    | nil => simp at h2; omega
    | cons x l =>
      obtain ⟨⟨_, _, _, _, hj, _, hx⟩, _⟩ := h3 x (by simp)
      exact absurd hx (hd _ _ _ _ _ (List.mem_of_getElem? hj))

/-! ### Functions that wait for their calls -/

theorem deferred_iff {n : Nest E V} {i : Nat} : n.deferred i = true ↔ ∃ ctx0 b d m, n.w.jobs[i]? = some (.accepted ctx0 b d .after m) := by
  unfold Nest.deferred
  constructor
  · intro h
    split at h
    · rename_i ctx0 b d m hj; exact ⟨_, _, _, _, hj⟩
    · simp at h
  · rintro ⟨_, _, _, _, h⟩; simp [h]

/-- Some call is at this point of its way. -/
def AtAfter (w : Worker E V) (i : Nat) : Prop := ∃ ctx0 b d m, w.jobs[i]? = some (.accepted ctx0 b d .after m)

theorem after_stable {w w' : Worker E V} (h : WStep w w') {j : Nat} (hj : AtAfter w j) : AtAfter w' j := by
  obtain ⟨ctx0, b, d, m, hj⟩ := hj
  have hset : ∀ {i : Nat} {a c : Job E V}, w.jobs[i]? = some a → (i = j → ∃ d' m', c = .accepted ctx0 b d' .after m') → ∃ ctx0 b d m,
      (w.jobs.set i c)[j]? = some (.accepted ctx0 b d .after m) := by
    intro i a c hi hc
    by_cases e : i = j
    · subst e
      obtain ⟨d', m', rfl⟩ := hc rfl
      exact ⟨_, _, _, _, List.getElem?_set_self (List.getElem?_eq_some_iff.mp hi).1⟩
    · exact ⟨_, _, _, _, by rw [List.getElem?_set_ne e]; exact hj⟩
  cases h with
  | call ctx b hc => exact ⟨_, _, _, _, by rw [List.getElem?_append_left (List.getElem?_eq_some_iff.mp hj).1]; exact hj⟩
  | cancel i b' e hc hi => exact hset hi fun e => by subst e; rw [hj] at hi; simp at hi
  | accept i ctx b' c hc hi hs => exact hset hi fun e => by subst e; rw [hj] at hi; simp at hi
  | doStep i ctx1 b' d1 d' ph m' hc hi hd hl =>
    refine hset hi fun e => ?_
    subst e; rw [hj] at hi
    simp only [Option.some.injEq, Job.accepted.injEq] at hi
    obtain ⟨rfl, rfl, _, rfl, rfl⟩ := hi
    exact ⟨_, _, rfl⟩
  | deferCall i ctx1 d1 m' o hc hi hl => exact hset hi fun e => by subst e; rw [hj] at hi; simp at hi
  | deferNil i ctx1 d1 m' o hc hi hl => exact hset hi fun e => by subst e; rw [hj] at hi; simp at hi
  | deferPanic i ctx1 b' d1 m' hc hi => exact hset hi fun e => by subst e; rw [hj] at hi; simp at hi
  | deferReturn i ctx1 b' d1 m' hc hi => exact hset hi fun e => by subst e; rw [hj] at hi; simp at hi
  | release i ctx1 b' d1 d' m' c o hc hi hl hr hd hl' =>
    refine hset hi fun e => ?_
    subst e; rw [hj] at hi
    simp only [Option.some.injEq, Job.accepted.injEq] at hi
    obtain ⟨rfl, rfl, _, _, rfl⟩ := hi
    exact ⟨_, _, rfl⟩

/-- Where a function is over, its code is. -/
def CodeOver (w : Worker E V) (code : Nat → Code) : Prop :=
  ∀ i ctx0 b d ph m, w.jobs[i]? = some (.accepted ctx0 b d ph m) → d.gor = .none ∨ d.gor = .running ∨ code i = .ret

theorem codeOver_set {w : Worker E V} {code : Nat → Code} {i : Nat} {a : Job E V} {c : Chan Unit} {x : Bool} (h : CodeOver w code)
    (ha : ∀ ctx0 b d ph m, a = .accepted ctx0 b d ph m → d.gor = .none ∨ d.gor = .running ∨ code i = .ret) :
    CodeOver { w with c := c, jobs := w.jobs.set i a, crashed := x } code := by
  intro k ctx0 b d ph m hk
  by_cases e : i = k
  · subst e
    have hlt : i < w.jobs.length := by simpa using (List.getElem?_eq_some_iff.mp hk).1
    simp only [List.getElem?_set_self hlt, Option.some.injEq] at hk
    exact ha _ _ _ _ _ hk
  · simp only [List.getElem?_set_ne e] at hk
    exact h k _ _ _ _ _ hk

theorem gor_step {d d' : DoSt E V} (h : DoStep true d d') (hf : d.gor = .running → d'.gor = .running) :
    d'.gor = .none ∨ d'.gor = .running ∨ (d.gor ≠ .none ∧ d.gor ≠ .running) := by
  cases hg : d.gor <;> cases h <;> simp_all

/-- Proof only: part of an invariant or simulation; models no code. -/
structure JInv (n : Nest E V) : Prop where
  over : CodeOver n.w n.code
  joins : ∀ i, (n.fn i).joins = true → (n.code i).joins = true ∨ n.code i = .ret ∧ ∀ j ∈ n.kids i, AtAfter n.w j

theorem JInv.keep {n : Nest E V} {w' : Worker E V} (h : JInv n) (hs : WStep n.w w') (ho : CodeOver w' n.code) : JInv { n with w := w' } :=
  ⟨ho, fun i hi => (h.joins i hi).imp id fun ⟨h1, h2⟩ => ⟨h1, fun j hj => after_stable hs (h2 j hj)⟩⟩

theorem start_over {n : Nest E V} (f : Code) (ctx : Option E) (h : CodeOver n.w n.code) : CodeOver (n.start f ctx).w (n.start f ctx).code := by
  intro k ctx0 b d ph m hk
  by_cases e : k < n.w.jobs.length
  · simp only [Nest.start, List.getElem?_append_left e] at hk ⊢
    rw [upd_ne _ _ (by omega)]
    exact h k _ _ _ _ _ hk
  · simp only [Nest.start, List.getElem?_append_right (Nat.not_lt.mp e)] at hk
    cases hx : k - n.w.jobs.length <;> simp [hx] at hk

theorem j_inv {size : Int} {n : Nest E V} (h : NReach size n) : JInv n := by
  induction h with
  | init hw =>
    unfold newWorker at hw
    split at hw
    · simp at hw
    · simp only [Option.some.injEq] at hw; subst hw
      exact ⟨by intro i; simp, by simp [Code.joins]⟩
  | @call n f ctx h hc ih =>
    refine ⟨start_over f ctx ih.over, fun i hi => ?_⟩
    simp only [Nest.start, upd] at hi ⊢
    split at hi
    · rename_i e; simp only [e, if_true]; exact .inl hi
    · rename_i e; simp only [e, if_false]
      exact (ih.joins i hi).imp id fun ⟨h1, h2⟩ => ⟨h1, fun j hj => after_stable (.call _ ctx false hc) (h2 j hj)⟩
  | cancel h hs ih =>
    have hw := cancels_w hs
    cases hs with
    | pending i b e hc hj => exact ih.keep hw (codeOver_set ih.over (by simp))
    | accepted i ctx0 b d ph m e hc hj hx =>
      refine ih.keep hw (codeOver_set ih.over ?_)
      intro ctx1 b1 d1 ph1 m1 h1
      simp only [Job.accepted.injEq] at h1
      obtain ⟨_, _, rfl, _⟩ := h1
      have := ih.over i _ _ d _ _ hj
      exact this
  | @inner n n' h hs ih =>
    cases hs with
    | own w' ho =>
      refine ih.keep (step_iff.mpr (.inl ho)) ?_
      have key : ∀ {i ctx0 b d ph m d'}, n.w.jobs[i]? = some (.accepted ctx0 b d ph m) → DoStep true d d' → (d.gor = .running → d'.gor = .running) →
          d'.gor = .none ∨ d'.gor = .running ∨ n.code i = .ret := by
        intro i ctx0 b d ph m d' hj hd hf
        rcases gor_step hd hf with h1 | h1 | ⟨h1, h2⟩
        · exact .inl h1
        · exact .inr (.inl h1)
        · rcases ih.over i _ _ _ _ _ hj with h3 | h3 | h3
          · exact absurd h3 h1
          · exact absurd h3 h2
          · exact .inr (.inr h3)
      cases ho with
      | accept i ctx b c h1 h2 h3 =>
        refine codeOver_set ih.over ?_
        intro _ _ _ _ _ e; simp only [Job.accepted.injEq] at e
        obtain ⟨_, _, rfl, _⟩ := e; exact .inl rfl
      | doOwn i ctx0 b d d' ph m h1 h2 h3 h4 =>
        refine codeOver_set ih.over ?_
        intro _ _ _ _ _ e; simp only [Job.accepted.injEq] at e
        obtain ⟨_, _, rfl, _⟩ := e; exact key h2 h3.1 h3.2.2
      | deferCall i ctx0 d m o h1 h2 h3 =>
        refine codeOver_set ih.over ?_
        intro _ _ _ _ _ e; simp only [Job.accepted.injEq] at e
        obtain ⟨_, _, rfl, _⟩ := e; exact ih.over i _ _ _ _ _ h2
      | deferNil i ctx0 d m o h1 h2 h3 =>
        refine codeOver_set ih.over ?_
        intro _ _ _ _ _ e; simp only [Job.accepted.injEq] at e
        obtain ⟨_, _, rfl, _⟩ := e; exact ih.over i _ _ _ _ _ h2
      | release i ctx0 b d d' m c o h1 h2 h3 h4 h5 h6 =>
        refine codeOver_set ih.over ?_
        intro _ _ _ _ _ e; simp only [Job.accepted.injEq] at e
        obtain ⟨_, _, rfl, _⟩ := e; exact key h2 h5 (by cases h5 <;> simp_all)
    | deferReturns i ctx0 b d m hc hj =>
      refine ih.keep (.deferReturn _ _ _ _ _ _ hc hj) (codeOver_set ih.over ?_)
      intro _ _ _ _ _ e; simp only [Job.accepted.injEq] at e
      obtain ⟨_, _, rfl, _⟩ := e; exact ih.over i _ _ _ _ _ hj
    | run i f k ctx hc hr hn hk =>
      obtain ⟨_, _, _, _, _, hj, hg⟩ := runs_iff.mp hr
      have hlt := runs_lt hr
      refine ⟨start_over f ctx ?_, fun x hx => ?_⟩
      · intro x ctx0 b d ph m hx
        by_cases e : x = i
        · subst e
          simp only at hx
          rw [hj] at hx; simp only [Option.some.injEq, Job.accepted.injEq] at hx
          obtain ⟨_, _, rfl, _⟩ := hx
          exact .inr (.inl hg)
        · simp only [upd_ne _ _ e]; exact ih.over x _ _ _ _ _ hx
      · simp only [Nest.start, upd] at hx ⊢
        split at hx
        · rename_i e; simp only [e, if_true]; exact .inl hx
        · rename_i e; simp only [e, if_false]
          have := ih.joins x hx
          by_cases e' : x = i
          · subst e'
            simp only [if_true]
            rw [hk] at this
            exact .inl (this.resolve_right (by simp))
          · simp only [e', if_false]
            exact this.imp id fun ⟨h1, h2⟩ => ⟨h1, fun j hj => after_stable (.call _ ctx false hc) (h2 j hj)⟩
    | wait i k hc hr hn hk hd =>
      obtain ⟨_, _, _, _, _, hj, hg⟩ := runs_iff.mp hr
      refine ⟨?_, fun x hx => ?_⟩
      · intro x ctx0 b d ph m hx
        by_cases e : x = i
        · subst e
          simp only at hx
          rw [hj] at hx; simp only [Option.some.injEq, Job.accepted.injEq] at hx
          obtain ⟨_, _, rfl, _⟩ := hx
          exact .inr (.inl hg)
        · simp only [upd_ne _ _ e]; exact ih.over x _ _ _ _ _ hx
      · simp only [upd]
        have := ih.joins x hx
        split
        · rename_i e; subst e
          rw [hk] at this
          have := this.resolve_right (by simp)
          cases k with
          | ret => exact .inr ⟨rfl, fun j hj => deferred_iff.mp (hd j hj)⟩
          | run f k => exact .inl this
          | wait k => exact .inl this
        · exact this
    | returns i ctx0 b d ph m e hc hj hg hn hk =>
      refine ih.keep (step_iff.mpr (.inr (.runEnds _ _ _ _ _ _ _ _ hc hj hg))) (codeOver_set ih.over ?_)
      intro _ _ _ _ _ _; exact .inr (.inr hk)

/-- **C125.** A function that waits for its calls at its end has them all behind it when it has returned: each of them was taken on, and its
`deferFunc` was called once and has returned. -/
theorem C125_joined {size : Int} {n : Nest E V} (h : NReach size n) {i : Nat} (hf : (n.fn i).joins = true) {ctx0 : Option E} {b : Bool} {d : DoSt E V}
    {ph : Phase} {m : Nat} (hj : n.w.jobs[i]? = some (.accepted ctx0 b d ph m)) {o : Outcome E V} (ho : d.gor = .ended o) {j : Nat} (hk : j ∈ n.kids i) :
    ∃ ctx1 b1 d1, n.w.jobs[j]? = some (.accepted ctx1 b1 d1 .after 1) := by
  have hi := j_inv h
  have hret : n.code i = .ret := by
    rcases hi.over i _ _ _ _ _ hj with h1 | h1 | h1
    · rw [ho] at h1; simp at h1
    · rw [ho] at h1; simp at h1
    · exact h1
  rcases hi.joins i hf with h1 | ⟨-, h1⟩
  · rw [hret] at h1; simp [Code.joins] at h1
  · obtain ⟨ctx1, b1, d1, m1, h2⟩ := h1 j hk
    obtain ⟨g1, g2, g3, g4⟩ := (w_inv (C125_worker h)).jobs _ (List.mem_of_getElem? h2)
    obtain ⟨rfl, _⟩ := g3 (by simp)
    exact ⟨_, _, _, h2⟩

/-! ### Executions that jam -/

/-- A worker of size `s` with `k` functions executing and `m` calls of `Run` waiting. -/
def jammed (s k m : Nat) : Worker Nat Nat :=
  ⟨⟨List.replicate k (), s, false⟩, List.replicate k (.accepted none false (runningJob none) .before 0) ++ List.replicate m (.pending none false), false⟩

theorem jammed_length (s k m : Nat) : (jammed s k m).jobs.length = k + m := by simp [jammed]

theorem jammed_at {s k m i : Nat} (h : i < k) : (jammed s k m).jobs[i]? = some (.accepted none false (runningJob none) .before 0) := by
  simp [jammed, List.getElem?_append, h]

theorem jammed_pending {s k m i : Nat} (h1 : k ≤ i) (h2 : i < k + m) : (jammed s k m).jobs[i]? = some (.pending none false) := by
  have : i - k < m := by omega
  simp [jammed, List.getElem?_append, Nat.not_lt.mpr h1, this]

theorem jammed_cases {s k m i : Nat} {j : Job Nat Nat} (h : (jammed s k m).jobs[i]? = some j) :
    (i < k ∧ j = .accepted none false (runningJob none) .before 0) ∨ (k ≤ i ∧ i < k + m ∧ j = .pending none false) := by
  by_cases hi : i < k
  · rw [jammed_at hi] at h; simp only [Option.some.injEq] at h; exact .inl ⟨hi, h.symm⟩
  · have hl := (List.getElem?_eq_some_iff.mp h).1
    rw [jammed_length] at hl
    rw [jammed_pending (by omega) hl] at h; simp only [Option.some.injEq] at h; exact .inr ⟨by omega, hl, h.symm⟩

/-- A waiting call gets a slot and its function starts. -/
theorem jammed_grow {s k : Nat} (hk : k < s) {fn code : Nat → Code} {kids : Nat → List Nat}
    (h : NReach s (⟨jammed s k 1, fn, code, kids⟩ : Nest Nat Nat)) : NReach s (⟨jammed s (k + 1) 0, fn, code, kids⟩ : Nest Nat Nat) := by
  have hset : ∀ a : Job Nat Nat, ∀ b : Job Nat Nat, ((List.replicate k a ++ [b]).set k) = fun c => List.replicate k a ++ [c] := by
    intro a b; funext c; rw [List.set_append_right _ _ (by simp)]; simp
  have h1 := h.inner (.own _ _ (.accept _ k none false ⟨List.replicate k () ++ [()], s, false⟩ rfl (by simp [jammed])
    (by simp [jammed, Chan.send, hk])))
  have h2 := h1.inner (.own _ _ (.doOwn _ k none false _ _ .before 0 rfl (by simp [jammed]; rfl) ⟨.entryGo _ rfl rfl, rfl, id⟩ (by simp)))
  have h3 := h2.inner (.own _ _ (.doOwn _ k none false _ _ .before 0 rfl (by simp [jammed]; rfl) ⟨.spawn _ rfl, rfl, fun _ => rfl⟩ (by simp)))
  refine cast (congrArg _ ?_) h3
  simp only [jammed, List.replicate_zero, List.append_nil, List.replicate_succ', List.nil_append, hset]
  rfl

/-- Nothing happens any more if all slots are taken by functions that wait for the worker. -/
theorem jammed_stuck {s m : Nat} {fn code : Nat → Code} {kids : Nat → List Nat} {n' : Nest Nat Nat}
    (hk : ∀ i, i < s → (∃ l j, kids i = j :: l ∧ s ≤ j ∧ j < s + m) ∨ (∃ k, code i = .wait k) ∧ ∃ j ∈ kids i, j < s) :
    ¬ Inner ⟨jammed s s m, fn, code, kids⟩ n' := by
  have hruns : ∀ {i}, (⟨jammed s s m, fn, code, kids⟩ : Nest Nat Nat).runs i = true → i < s := by
    intro i hr
    obtain ⟨_, _, _, _, _, hj, _⟩ := runs_iff.mp hr
    rcases jammed_cases hj with h | ⟨_, _, h⟩
    · exact h.1
    · simp at h
  have hin : ∀ {i}, i < s → (⟨jammed s s m, fn, code, kids⟩ : Nest Nat Nat).inRun i = false → (∃ k, code i = .wait k) ∧ ∃ j ∈ kids i, j < s := by
    intro i hi hn
    rcases hk i hi with ⟨l, j, h1, h2, h3⟩ | h
    · simp [Nest.inRun, h1, Nest.pending, jammed_pending h2 h3] at hn
    · exact h
  intro h
  cases h with
  | own w' ho =>
    cases ho with
    | accept i ctx b c h1 h2 h3 => simp [jammed, Chan.send] at h3
    | doOwn i ctx0 b d d' ph m' h1 h2 h3 h4 =>
      rcases jammed_cases h2 with ⟨_, e⟩ | ⟨_, _, e⟩
      · simp only [Job.accepted.injEq] at e
        obtain ⟨_, _, rfl, _, _⟩ := e
        obtain ⟨h5, h6, h7⟩ := h3
        cases h5 <;> simp_all [runningJob, Chan.make, Chan.recv]
      · simp at e
    | deferCall i ctx0 d m' o h1 h2 h3 =>
      rcases jammed_cases h2 with ⟨_, e⟩ | ⟨_, _, e⟩
      · simp only [Job.accepted.injEq] at e
        obtain ⟨_, _, rfl, _, _⟩ := e
        simp [runningJob] at h3
      · simp at e
    | deferNil i ctx0 d m' o h1 h2 h3 => rcases jammed_cases h2 with ⟨_, e⟩ | ⟨_, _, e⟩ <;> simp at e
    | release i ctx0 b d d' m' c o h1 h2 => rcases jammed_cases h2 with ⟨_, e⟩ | ⟨_, _, e⟩ <;> simp at e
  | deferReturns i ctx0 b d m' hc hj => rcases jammed_cases hj with ⟨_, e⟩ | ⟨_, _, e⟩ <;> simp at e
  | run i f k ctx hc hr hn hk' =>
    obtain ⟨⟨k', h1⟩, _⟩ := hin (hruns hr) hn
    simp only at hk'
    rw [h1] at hk'; simp at hk'
  | wait i k hc hr hn hk' hd =>
    obtain ⟨-, j, h1, h2⟩ := hin (hruns hr) hn
    have := hd j h1
    simp [Nest.deferred, jammed_at h2] at this
  | returns i ctx0 b d ph m' e hc hj hg hn hk' =>
    obtain ⟨⟨k', h1⟩, _⟩ := hin (hruns (runs_iff.mpr ⟨_, _, _, _, _, hj, hg⟩)) hn
    simp only at hk'
    rw [h1] at hk'; simp at hk'

/-- `k` functions that call `Run` once are executing, `m` of them have made the call. -/
def crowd (s k m : Nat) : Nest Nat Nat where
  w := jammed s k m
  fn := fun i => if i < k then .run .ret .ret else .ret
  code := fun i => if m ≤ i ∧ i < k then .run .ret .ret else .ret
  kids := fun i => if i < m then [k + i] else []

theorem crowd_calls (s : Nat) : ∀ k, k ≤ s → NReach s (crowd s k 0)
  | 0, _ => by
    refine cast (congrArg _ ?_) (NReach.init (size := s) (w := ⟨Chan.make s, [], false⟩) (by simp [newWorker]))
    simp [crowd, jammed, Chan.make]
  | k + 1, h => by
    have h1 := (crowd_calls s k (by omega)).call (.run .ret .ret) none rfl
    have h2 : (crowd s k 0).start (.run .ret .ret) none = ⟨jammed s k 1, (crowd s (k + 1) 0).fn, (crowd s (k + 1) 0).code, (crowd s (k + 1) 0).kids⟩ := by
      simp only [crowd, Nest.start, jammed_length, Nest.mk.injEq]
      refine ⟨by simp [jammed], ?_, ?_, ?_⟩ <;> funext i <;> simp only [upd]
      all_goals ((repeat' split) <;> first | rfl | (exfalso; omega))
    exact jammed_grow (by omega) (h2 ▸ h1)

theorem crowd_nested (s : Nat) : ∀ m, m ≤ s → NReach s (crowd s s m)
  | 0, _ => crowd_calls s s (Nat.le_refl _)
  | m + 1, h => by
    have hm : m < s := by omega
    have hr : (crowd s s m).runs m = true := runs_iff.mpr ⟨_, _, _, _, _, jammed_at hm, rfl⟩
    have h1 := (crowd_nested s m (by omega)).inner (.run _ m .ret .ret none rfl hr (by simp [Nest.inRun, crowd]) (by simp [crowd, hm]))
    refine cast (congrArg _ ?_) h1
    simp only [crowd, Nest.start, jammed_length, Nest.mk.injEq]
    refine ⟨by simp [jammed, List.replicate_succ'], ?_, ?_, ?_⟩ <;> funext i <;> simp only [upd]
    · split
      · simp_all
      · rfl
    · split
      · rw [if_neg (by omega)]
      · split
        · rw [if_neg (by omega)]
        · split <;> split <;> first | rfl | (exfalso; omega)
    · split
      · rw [if_neg (by omega)]
      · split
        · rename_i e; subst e; simp
        · split <;> split <;> first | rfl | (exfalso; omega)

/-- **C125** is false of the code without a condition: for a worker of any size there is an execution in which as many functions as there are slots
call `Run` once and wait for ever, although every function would return. -/
theorem C125_crowd_refuted (s : Nat) (_ : 1 ≤ s) : ∃ n : Nest Nat Nat, NReach s n ∧ (∀ n', ¬ Inner n n') ∧ n.w.jobs.length = 2 * s ∧
    (∀ i, n.fn i = .ret ∨ n.fn i = .run .ret .ret) ∧ ∀ i, ¬ n.Over i := by
  refine ⟨crowd s s s, crowd_nested s s (Nat.le_refl _), fun n' => ?_, ?_, fun i => ?_, ?_⟩
  · exact jammed_stuck fun i hi => .inl ⟨[], s + i, by simp [hi], by omega, by omega⟩
  · simp only [crowd, jammed_length]; omega
  · simp only [crowd]; split <;> simp
  · rintro i ⟨ctx0, b, d, e, hj, -⟩
    rcases jammed_cases hj with ⟨_, h⟩ | ⟨_, _, h⟩ <;> simp at h

/-- Calls nested to the depth `d`, each function waits for the call it has made. -/
def deep : Nat → Code
  | 0 => .ret
  | d + 1 => .run (deep d) (.wait .ret)

/-- The `k` outermost functions are executing. -/
def tower (s k : Nat) : Nest Nat Nat where
  w := jammed s k 0
  fn := fun i => if i < k then deep (s - i) else .ret
  code := fun i => if i + 1 < k then .wait .ret else if i + 1 = k then deep (s - i) else .ret
  kids := fun i => if i + 1 < k then [i + 1] else []

/-- The innermost of them has called `Run`. -/
def tower' (s k : Nat) : Nest Nat Nat where
  w := jammed s k 1
  fn := fun i => if i < k + 1 then deep (s - i) else .ret
  code := fun i => if i < k then .wait .ret else if i = k then deep (s - i) else .ret
  kids := fun i => if i < k then [i + 1] else []

theorem tower_run {s k : Nat} (hk : k < s) (h : NReach s (tower s (k + 1))) : NReach s (tower' s (k + 1)) := by
  have hr : (tower s (k + 1)).runs k = true := runs_iff.mpr ⟨_, _, _, _, _, jammed_at (Nat.lt_succ_self _), rfl⟩
  obtain ⟨d, hd⟩ : ∃ d, s - k = d + 1 := ⟨s - k - 1, by omega⟩
  have hd' : s - (k + 1) = d := by omega
  have h1 := h.inner (.run _ k (deep d) (.wait .ret) none rfl hr (by simp [Nest.inRun, tower]) (by simp [tower, hd, deep]))
  refine cast (congrArg _ ?_) h1
  simp only [tower, tower', Nest.start, jammed_length, Nest.mk.injEq]
  refine ⟨by simp [jammed], ?_, ?_, ?_⟩ <;> funext i <;> simp only [upd]
  · (repeat' split) <;> first | rfl | (exfalso; omega) | (congr 1; omega)
  · (repeat' split) <;> first | rfl | (exfalso; omega) | (congr 1; omega)
  · (repeat' split) <;> first | rfl | (exfalso; omega) | (simp; omega)

theorem tower_reach (s : Nat) : ∀ k, k < s → NReach s (tower s (k + 1))
  | 0, hs => by
    have h0 : NReach s (⟨⟨Chan.make s, [], false⟩, fun _ => .ret, fun _ => .ret, fun _ => []⟩ : Nest Nat Nat) :=
      NReach.init (by simp [newWorker])
    have h1 := h0.call (deep s) none rfl
    refine cast (congrArg _ ?_) (jammed_grow hs h1)
    simp only [tower, Nest.mk.injEq, List.length_nil]
    refine ⟨trivial, ?_, ?_, ?_⟩ <;> funext i <;> simp only [upd]
    · by_cases e : i = 0 <;> simp [e]
    · by_cases e : i = 0 <;> simp [e]
    · by_cases e : i = 0 <;> simp [e]
  | k + 1, hs => by
    have h1 := jammed_grow hs (tower_run (by omega) (tower_reach s k (by omega)))
    refine cast (congrArg _ ?_) h1
    simp only [tower, Nest.mk.injEq]
    refine ⟨trivial, trivial, ?_, ?_⟩ <;> funext i
    · (repeat' split) <;> first | rfl | (exfalso; omega)
    · split <;> split <;> first | rfl | (exfalso; omega)

/-- **C125** is false of the code without a condition: a single call from outside is enough, if functions wait for the calls they make and the calls
are nested as deeply as the worker has slots. -/
theorem C125_deep_refuted (s : Nat) (hs : 1 ≤ s) : ∃ n : Nest Nat Nat, NReach s n ∧ (∀ n', ¬ Inner n n') ∧ n.fn 0 = deep s ∧
    (∀ i, n.kids i = if i < s then [i + 1] else []) ∧ n.w.jobs.length = s + 1 ∧ ∀ i, ¬ n.Over i := by
  obtain ⟨k, rfl⟩ : ∃ k, s = k + 1 := ⟨s - 1, by omega⟩
  refine ⟨tower' (k + 1) (k + 1), tower_run (by omega) (tower_reach _ k (by omega)), fun n' => ?_, by simp [tower'], fun _ => rfl,
    by simp [tower', jammed_length], ?_⟩
  · refine jammed_stuck fun i hi => ?_
    by_cases e : i = k
    · subst e; exact .inl ⟨[], i + 1, by simp, by omega, by omega⟩
    · refine .inr ⟨⟨.ret, by simp [hi]⟩, i + 1, by simp [hi], by omega⟩
  · rintro i ⟨ctx0, b, d, e, hj, -⟩
    rcases jammed_cases hj with ⟨_, h⟩ | ⟨_, _, h⟩ <;> simp at h

/-! ## Examples -/

/-- A job whose function has returned `e` and which is over. -/
def overJob (e : Nat) : Job Nat Nat := .accepted none false ⟨none, Chan.make 1, Chan.make 1, .left (.err e), .ended (.returned e), 1, true⟩ .after 1

/-- The end of an execution on a worker of size 2 in which a function has called `Run` and has waited for the call. -/
def endNest : Nest Nat Nat :=
  ⟨⟨⟨[], 2, false⟩, [overJob 4, overJob 3], false⟩, upd (upd (fun _ => .ret) 0 (.run .ret (.wait .ret))) 1 .ret, fun _ => .ret,
    upd (upd (fun _ => []) 0 [1]) 1 []⟩

theorem demoNest : NReach 2 endNest := by
  have h0 : NReach 2 (⟨⟨Chan.make 2, [], false⟩, fun _ => .ret, fun _ => .ret, fun _ => []⟩ : Nest Nat Nat) := .init rfl
  have h1 := h0.call (.run .ret (.wait .ret)) none rfl
  have h2 := h1.inner (.own _ _ (.accept _ 0 none false _ rfl rfl rfl))
  have h3 := h2.inner (.own _ _ (.doOwn _ 0 none false _ _ .before 0 rfl rfl ⟨.entryGo _ rfl rfl, rfl, id⟩ (by simp)))
  have h4 := h3.inner (.own _ _ (.doOwn _ 0 none false _ _ .before 0 rfl rfl ⟨.spawn _ rfl, rfl, fun _ => rfl⟩ (by simp)))
  have h5 := h4.inner (.run _ 0 .ret (.wait .ret) none rfl rfl rfl rfl)
  have h6 := h5.inner (.own _ _ (.accept _ 1 none false _ rfl rfl rfl))
  have h7 := h6.inner (.own _ _ (.doOwn _ 1 none false _ _ .before 0 rfl rfl ⟨.entryGo _ rfl rfl, rfl, id⟩ (by simp)))
  have h8 := h7.inner (.own _ _ (.doOwn _ 1 none false _ _ .before 0 rfl rfl ⟨.spawn _ rfl, rfl, fun _ => rfl⟩ (by simp)))
  have h9 := h8.inner (.returns _ 1 none false _ .before 0 3 rfl rfl rfl rfl rfl)
  have h10 := h9.inner (.own _ _ (.doOwn _ 1 none false _ _ .before 0 rfl rfl ⟨.deliverRet _ 3 _ rfl rfl, rfl, fun h => by simp at h⟩ (by simp)))
  have h11 := h10.inner (.own _ _ (.doOwn _ 1 none false _ _ .before 0 rfl rfl ⟨.recvDone _ 3 _ rfl rfl, rfl, id⟩ (by simp)))
  have h12 := h11.inner (.own _ _ (.deferCall _ 1 none _ 0 _ rfl rfl rfl))
  have h13 := h12.inner (.deferReturns _ 1 none false _ 1 rfl rfl)
  have h14 := h13.inner (.own _ _ (.release _ 1 none false _ _ 1 _ _ rfl rfl rfl rfl (.leave _ _ rfl) rfl))
  have h15 := h14.inner (.wait _ 0 .ret rfl rfl rfl rfl (fun j hj => by
    have e : j = 1 := List.mem_singleton.mp (show j ∈ [1] from hj)
    subst e; rfl))
  have h16 := h15.inner (.returns _ 0 none false _ .before 0 4 rfl rfl rfl rfl rfl)
  have h17 := h16.inner (.own _ _ (.doOwn _ 0 none false _ _ .before 0 rfl rfl ⟨.deliverRet _ 4 _ rfl rfl, rfl, fun h => by simp at h⟩ (by simp)))
  have h18 := h17.inner (.own _ _ (.doOwn _ 0 none false _ _ .before 0 rfl rfl ⟨.recvDone _ 4 _ rfl rfl, rfl, id⟩ (by simp)))
  have h19 := h18.inner (.own _ _ (.deferCall _ 0 none _ 0 _ rfl rfl rfl))
  have h20 := h19.inner (.deferReturns _ 0 none false _ 1 rfl rfl)
  have h21 := h20.inner (.own _ _ (.release _ 0 none false _ _ 1 _ _ rfl rfl rfl rfl (.leave _ _ rfl) rfl))
  refine cast (congrArg _ ?_) h21
  simp only [endNest, Nest.start, Nest.mk.injEq]
  refine ⟨rfl, rfl, ?_, ?_⟩
  · funext i; rcases i with _ | _ | i <;> rfl
  · funext i; rcases i with _ | _ | i <;> rfl

example : WReach 2 endNest.w := C125_worker demoNest
example : endNest.w.crashed = false := C125_no_crash demoNest
example : Acc (fun n' n => Inner n n' ∨ Cancels n n') (crowd 3 3 0) := C125_ends _
/-- The execution with functions that call `Run` can go on and does not end at once. -/
example : ∃ n', Inner (crowd 3 3 0) n' :=
  ⟨_, .run _ 0 .ret .ret none rfl (runs_iff.mpr ⟨_, _, _, _, _, jammed_at (by omega), rfl⟩) rfl rfl⟩

theorem do_over {d d' : DoSt Nat Nat} {o : Out Nat Nat} (h : DoOwn true d d') (hl : d.caller = .left o)
    (hg : d.gor = .none ∨ ∃ e, d.gor = .ended (.returned e)) : False := by
  obtain ⟨h1, h2, h3⟩ := h
  obtain hg | ⟨e, hg⟩ := hg <;> cases h1 <;> simp_all

theorem over_stuck {n : Nest Nat Nat} (h : ∀ j ∈ n.w.jobs, ∃ (ctx0 : Option Nat) (d : DoSt Nat Nat) (o : Out Nat Nat), j = .accepted ctx0 false d .after 1 ∧ d.caller = .left o ∧
    (d.gor = .none ∨ ∃ e, d.gor = .ended (.returned e))) (n' : Nest Nat Nat) : ¬ Inner n n' := by
  have key : ∀ (i : Nat) (ctx0 : Option Nat) (b : Bool) (d : DoSt Nat Nat) (ph : Phase) (m : Nat), n.w.jobs[i]? = some (.accepted ctx0 b d ph m) →
      b = false ∧ ph = .after ∧ (∃ o, d.caller = .left o) ∧ (d.gor = .none ∨ ∃ e, d.gor = .ended (.returned e)) := by
    intro i ctx0 b d ph m hj
    obtain ⟨ctx', d', o, h1, h2, h3⟩ := h _ (List.mem_of_getElem? hj)
    simp only [Job.accepted.injEq] at h1
    obtain ⟨_, rfl, rfl, rfl, _⟩ := h1
    exact ⟨rfl, rfl, ⟨_, h2⟩, h3⟩
  have hp : ∀ (i : Nat) (ctx : Option Nat) (b : Bool), n.w.jobs[i]? ≠ some (.pending ctx b) := by
    intro i ctx b hj
    obtain ⟨ctx', d', o, h1, _⟩ := h _ (List.mem_of_getElem? hj)
    simp at h1
  intro hs
  cases hs with
  | own w' ho =>
    cases ho with
    | accept i ctx b c h1 h2 h3 => exact hp _ _ _ h2
    | doOwn i ctx0 b d d' ph m h1 h2 h3 h4 =>
      obtain ⟨_, _, ⟨o, ho⟩, he⟩ := key _ _ _ _ _ _ h2
      exact do_over h3 ho he
    | deferCall i ctx0 d m o h1 h2 h3 => exact absurd (key _ _ _ _ _ _ h2).2.1 (by simp)
    | deferNil i ctx0 d m o h1 h2 h3 => exact absurd (key _ _ _ _ _ _ h2).2.1 (by simp)
    | release i ctx0 b d d' m c o h1 h2 h3 =>
      obtain ⟨_, _, ⟨o', ho⟩, _⟩ := key _ _ _ _ _ _ h2
      rw [ho] at h3; simp at h3
  | deferReturns i ctx0 b d m hc hj => exact absurd (key _ _ _ _ _ _ hj).2.1 (by simp)
  | run i f k ctx hc hr hn hk =>
    obtain ⟨_, _, _, _, _, hj, hg⟩ := runs_iff.mp hr
    obtain ⟨_, _, _, he | ⟨e, he⟩⟩ := key _ _ _ _ _ _ hj <;> rw [he] at hg <;> simp at hg
  | wait i k hc hr hn hk hd =>
    obtain ⟨_, _, _, _, _, hj, hg⟩ := runs_iff.mp hr
    obtain ⟨_, _, _, he | ⟨e, he⟩⟩ := key _ _ _ _ _ _ hj <;> rw [he] at hg <;> simp at hg
  | returns i ctx0 b d ph m e hc hj hg hn hk =>
    obtain ⟨_, _, _, he | ⟨e, he⟩⟩ := key _ _ _ _ _ _ hj <;> rw [he] at hg <;> simp at hg

theorem endNest_stuck (n' : Nest Nat Nat) : ¬ Inner endNest n' := over_stuck (by
  intro j hj
  simp only [endNest, List.mem_cons, List.not_mem_nil, or_false] at hj
  rcases hj with rfl | rfl <;> exact ⟨_, _, _, rfl, rfl, .inr ⟨_, rfl⟩⟩) n'

example : (∀ i, i < 2 → endNest.Over i) ∨
    (∃ i, endNest.pending i = true) ∧ ∃ l : List Nat, l.Nodup ∧ (l.length : Int) = 2 ∧ ∀ i ∈ l, endNest.Holds i := C125_exact demoNest endNest_stuck
example : ∃ ctx1 b1 d1, endNest.w.jobs[1]? = some (.accepted ctx1 b1 d1 .after 1) := C125_joined demoNest (i := 0) rfl rfl rfl (List.mem_singleton.mpr rfl)
example : endNest.Over 0 := C125_over_partial demoNest endNest_stuck (by decide) (by decide)
example : endNest.Over 1 := C125_over_partial demoNest endNest_stuck (by decide) (by decide)

/-- The function has called `Run` on a worker of size 1, so nothing could happen any more; then the contexts became done. -/
def cancelledNest : Nest Nat Nat :=
  ⟨⟨⟨[], 1, false⟩, [.accepted none false ⟨some 7, ⟨[4], 1, false⟩, Chan.make 1, .left (.err 7), .ended (.returned 4), 1, true⟩ .after 1,
    .accepted (some 8) false ⟨some 8, Chan.make 1, Chan.make 1, .left (.err 8), .none, 1, false⟩ .after 1], false⟩,
    (crowd 1 1 1).fn, (crowd 1 1 1).code, (crowd 1 1 1).kids⟩

theorem demoCancelledNest : NReach 1 cancelledNest := by
  have h0 : NReach 1 (crowd 1 1 1) := crowd_nested 1 1 (Nat.le_refl _)
  have h1 := h0.cancel (.accepted _ 0 none false _ .before 0 7 rfl rfl rfl)
  have h2 := h1.cancel (.pending _ 1 false 8 rfl rfl)
  have h3 := h2.inner (.own _ _ (.doOwn _ 0 none false _ _ .before 0 rfl rfl ⟨.recvCtx _ 7 rfl rfl, rfl, id⟩ (by simp)))
  have h4 := h3.inner (.own _ _ (.deferCall _ 0 none _ 0 _ rfl rfl rfl))
  have h5 := h4.inner (.deferReturns _ 0 none false _ 1 rfl rfl)
  have h6 := h5.inner (.own _ _ (.release _ 0 none false _ _ 1 _ _ rfl rfl rfl rfl (.leave _ _ rfl) rfl))
  have h7 := h6.inner (.own _ _ (.accept _ 1 (some 8) false _ rfl rfl rfl))
  have h8 := h7.inner (.own _ _ (.doOwn _ 1 (some 8) false _ _ .before 0 rfl rfl ⟨.entryDone _ 8 rfl rfl, rfl, id⟩ (by simp)))
  have h9 := h8.inner (.own _ _ (.deferCall _ 1 (some 8) _ 0 _ rfl rfl rfl))
  have h10 := h9.inner (.deferReturns _ 1 (some 8) false _ 1 rfl rfl)
  have h11 := h10.inner (.own _ _ (.release _ 1 (some 8) false _ _ 1 _ _ rfl rfl rfl rfl (.leave _ _ rfl) rfl))
  have h12 := h11.inner (.returns _ 0 none false _ .after 1 4 rfl rfl rfl rfl rfl)
  exact h12.inner (.own _ _ (.doOwn _ 0 none false _ _ .after 1 rfl rfl ⟨.deliverRet _ 4 _ rfl rfl, rfl, fun h => by simp at h⟩ (by simp)))

example : cancelledNest.Over 0 := by
  refine C125_cancelled demoCancelledNest (by decide) (over_stuck ?_) ?_ (by decide)
  · intro j hj
    simp only [cancelledNest, List.mem_cons, List.not_mem_nil, or_false] at hj
    rcases hj with rfl | rfl
    · exact ⟨_, _, _, rfl, rfl, .inr ⟨_, rfl⟩⟩
    · exact ⟨_, _, _, rfl, rfl, .inl rfl⟩
  · intro ctx0 b d ph m hj
    simp only [cancelledNest, List.mem_cons, List.not_mem_nil, or_false, Job.accepted.injEq] at hj
    rcases hj with ⟨_, _, rfl, _⟩ | ⟨_, _, rfl, _⟩ <;> simp

end Verif.XWorker

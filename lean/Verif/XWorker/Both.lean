import Verif.XWorker.DeferNest
/-!
# Functions and `deferFunc`s that both call `Run` of the same `Worker` (C145)

The model of `xworker/xworker.go` of `Model.lean`, together with the code of both functions given to `Run`: `run` and `deferFunc`. Each of them makes calls
of `Run` on the worker that executes it, in any number and with functions that do the same, to any depth; between them it may wait until the `deferFunc`s
of the calls it has made so far have returned; then it returns. When the context of a call is done, its `deferFunc` is executed while `run` may still be
executing (xtask/do.go:51-53), so both go on independently. C125 and C144 are about one of the two functions only. Simplifications: functions do not panic
and `deferFunc` is not nil.
-/
namespace Verif.XWorker
open Verif.Go Verif.XTask

variable {E V : Type}

/-! ## Model -/

/-- The code of a function given to `Run` as far as the worker is concerned. -/
inductive Body where
  | ret
  /-- `w.Run(ctx, r, d)` and then `k` -/
  | run (r d k : Body)
  /-- wait until the `deferFunc`s of all calls made so far have returned, and then `k` -/
  | wait (k : Body)
  deriving DecidableEq

/-- Which of the two functions given to a call of `Run` (xworker.go:36). -/
inductive Part where
  | run
  | deferFunc
  deriving DecidableEq

/-- The `run` of call `i` is executing (xworker.go:47). -/
def Worker.runs (w : Worker E V) (i : Nat) : Prop := ∃ ctx0 b d ph m, w.jobs[i]? = some (.accepted ctx0 b d ph m) ∧ d.gor = .running

/-- The `deferFunc` of call `i` is executing (xworker.go:44). -/
def Worker.finishing (w : Worker E V) (i : Nat) : Prop := ∃ ctx0 b d m, w.jobs[i]? = some (.accepted ctx0 b d .executing m)

/-- Call `i` of `Run` has not returned yet (xworker.go:37). -/
def Worker.waiting (w : Worker E V) (i : Nat) : Prop := ∃ ctx b, w.jobs[i]? = some (.pending ctx b)

/-- The `deferFunc` of call `i` has returned (xworker.go:44). -/
def Worker.deferred (w : Worker E V) (i : Nat) : Prop := ∃ ctx0 b d m, w.jobs[i]? = some (.accepted ctx0 b d .after m)

/-- A worker and the functions given to it, which are named by the index of the call of `Run` and the part. -/
structure Both (E V : Type) where
  w : Worker E V
  /-- the function given to the call -/
  fn : Nat → Part → Body
  /-- what it still has to do -/
  code : Nat → Part → Body
  /-- the calls of `Run` it has made, the last one first -/
  kids : Nat → Part → List Nat

/-- The function is executing. -/
def Both.active (n : Both E V) (i : Nat) : Part → Prop
  | .run => n.w.runs i
  | .deferFunc => n.w.finishing i

/-- The function is inside a call of `Run`: the last one it made has not returned. -/
def Both.inRun (n : Both E V) (i : Nat) (s : Part) : Prop := ∃ j l, n.kids i s = j :: l ∧ n.w.waiting j

/-- Change of what belongs to one function. -/
def upd2 {α : Type} (f : Nat → Part → α) (i : Nat) (s : Part) (a : α) : Nat → Part → α := fun j t => if j = i ∧ t = s then a else f j t

/-- A call of `Run` with the functions `r` and `d`: xworker.go:36-37. -/
def Both.start (n : Both E V) (r d : Body) (ctx : Option E) : Both E V :=
  { w := { n.w with jobs := n.w.jobs ++ [.pending ctx false] }
    fn := upd2 (upd2 n.fn n.w.jobs.length .run r) n.w.jobs.length .deferFunc d
    code := upd2 (upd2 n.code n.w.jobs.length .run r) n.w.jobs.length .deferFunc d
    kids := upd2 (upd2 n.kids n.w.jobs.length .run []) n.w.jobs.length .deferFunc [] }

/-- What the worker and the functions in it do: xworker.go:36-48 together with the code of the functions. -/
inductive InnerB : Both E V → Both E V → Prop where
  /-- a step of the worker itself -/
  | own (n : Both E V) (w' : Worker E V) : Own n.w w' → InnerB n { n with w := w' }
  /-- a function calls `Run` -/
  | run (n : Both E V) (i : Nat) (s : Part) (r d k : Body) (ctx : Option E) : n.w.crashed = false → n.active i s → ¬ n.inRun i s → n.code i s = .run r d k →
      InnerB n ({ n with code := upd2 n.code i s k, kids := upd2 n.kids i s (n.w.jobs.length :: n.kids i s) }.start r d ctx)
  /-- a function has waited for the `deferFunc`s of its calls -/
  | wait (n : Both E V) (i : Nat) (s : Part) (k : Body) : n.w.crashed = false → n.active i s → ¬ n.inRun i s → n.code i s = .wait k →
      (∀ j ∈ n.kids i s, n.w.deferred j) → InnerB n { n with code := upd2 n.code i s k }
  /-- `run` returns -/
  | runReturns (n : Both E V) (i : Nat) (ctx0 : Option E) (b : Bool) (d : DoSt E V) (ph : Phase) (m : Nat) (e : E) : n.w.crashed = false →
      n.w.jobs[i]? = some (.accepted ctx0 b d ph m) → d.gor = .running → ¬ n.inRun i .run → n.code i .run = .ret →
      InnerB n { n with w := { n.w with jobs := n.w.jobs.set i (.accepted ctx0 b { d with gor := .finished (.returned e) } ph m) } }
  /-- `deferFunc` returns -/
  | deferReturns (n : Both E V) (i : Nat) (ctx0 : Option E) (b : Bool) (d : DoSt E V) (m : Nat) : n.w.crashed = false →
      n.w.jobs[i]? = some (.accepted ctx0 b d .executing m) → ¬ n.inRun i .deferFunc → n.code i .deferFunc = .ret →
      InnerB n { n with w := { n.w with jobs := n.w.jobs.set i (.accepted ctx0 b d .after m) } }

/-- A context becomes done: that of a waiting or of an accepted call. -/
inductive CancelsB : Both E V → Both E V → Prop where
  | pending (n : Both E V) (i : Nat) (b : Bool) (e : E) : n.w.crashed = false → n.w.jobs[i]? = some (.pending none b) →
      CancelsB n { n with w := { n.w with jobs := n.w.jobs.set i (.pending (some e) b) } }
  | accepted (n : Both E V) (i : Nat) (ctx0 : Option E) (b : Bool) (d : DoSt E V) (ph : Phase) (m : Nat) (e : E) : n.w.crashed = false →
      n.w.jobs[i]? = some (.accepted ctx0 b d ph m) → d.ctx = none →
      CancelsB n { n with w := { n.w with jobs := n.w.jobs.set i (.accepted ctx0 b { d with ctx := some e } ph m) } }

/-- All executions: `Run` is called from outside with any functions, and everything else happens in any order. -/
inductive BReach (size : Int) : Both E V → Prop where
  | init {w : Worker E V} : newWorker size = some w → BReach size ⟨w, fun _ _ => .ret, fun _ _ => .ret, fun _ _ => []⟩
  | call {n : Both E V} (r d : Body) (ctx : Option E) : BReach size n → n.w.crashed = false → BReach size (n.start r d ctx)
  | cancel {n n' : Both E V} : BReach size n → CancelsB n n' → BReach size n'
  | inner {n n' : Both E V} : BReach size n → InnerB n n' → BReach size n'

/-! ## Specification -/

/-- The function makes a call of `Run`. -/
def Body.calls : Body → Prop
  | .ret => False
  | .run _ _ _ => True
  | .wait k => k.calls

/-- The function waits for the worker: it is executing and is inside a call of `Run` that has found no free slot, or it waits for the `deferFunc` of a call
it has made. -/
def Both.Waits (n : Both E V) (i : Nat) (s : Part) : Prop :=
  n.active i s ∧ (n.inRun i s ∨ (∃ k, n.code i s = .wait k) ∧ ∃ j ∈ n.kids i s, ¬ n.w.deferred j)

/-- A function given to call `i` holds its slot and waits for the worker: `run`, whose context is not done, or `deferFunc`. -/
def Both.Holds (n : Both E V) (i : Nat) : Prop :=
  n.Waits i .deferFunc ∨ n.Waits i .run ∧ ∃ ctx0 b d m, n.w.jobs[i]? = some (.accepted ctx0 b d .before m) ∧ d.ctx = none

/-- Call `i` is over: `run` has returned or was not called as its context was done, `deferFunc` has been called once and has returned, the slot is free. -/
def Both.Over (n : Both E V) (i : Nat) : Prop :=
  ∃ ctx0 b d e, n.w.jobs[i]? = some (.accepted ctx0 b d .after 1) ∧ d.caller = .left (.err e) ∧ (d.ctx = some e ∨ d.gor = .ended (.returned e)) ∧
    d.gor ≠ .running

/-! ## Proofs -/

theorem upd2_self {α : Type} (f : Nat → Part → α) (i : Nat) (s : Part) (a : α) : upd2 f i s a i s = a := by simp [upd2]

theorem upd2_ne {α : Type} (f : Nat → Part → α) {i j : Nat} {s t : Part} (a : α) (h : ¬ (j = i ∧ t = s)) : upd2 f i s a j t = f j t := by simp [upd2, h]

theorem innerB_w {n n' : Both E V} (h : InnerB n n') : WStep n.w n'.w ∨ n'.w = n.w := by
  cases h with
  | own w' h => exact .inl (step_iff.mpr (.inl h))
  | run i s r d k ctx hc hr hn hk => exact .inl (.call _ ctx false hc)
  | wait i s k hc hr hn hk hd => exact .inr rfl
  | runReturns i ctx0 b d ph m e hc hj hg hn hk => exact .inl (step_iff.mpr (.inr (.runEnds _ _ _ _ _ _ _ _ hc hj hg)))
  | deferReturns i ctx0 b d m hc hj hn hk => exact .inl (.deferReturn _ _ _ _ _ _ hc hj)

theorem cancelsB_w {n n' : Both E V} (h : CancelsB n n') : WStep n.w n'.w := by
  cases h with
  | pending i b e hc hj => exact .cancel _ _ _ _ hc hj
  | accepted i ctx0 b d ph m e hc hj hx => exact step_iff.mpr (.inr (.cancel _ _ _ _ _ _ _ _ hc hj hx))

/-- **C145.** The worker does what it does with any other functions: the states of the worker are states of the model of C13, C14, C78 and C116. -/
theorem C145_worker {size : Int} {n : Both E V} (h : BReach size n) : WReach size n.w := by
  induction h with
  | init hw => exact .init hw
  | call r d ctx h hc ih => exact ih.step (.call _ ctx false hc)
  | cancel h hs ih => exact ih.step (cancelsB_w hs)
  | inner h hs ih =>
    rcases innerB_w hs with hw | hw
    · exact ih.step hw
    · rw [hw]; exact ih

theorem active_lt {n : Both E V} {i : Nat} {s : Part} (h : n.active i s) : i < n.w.jobs.length := by
  cases s with
  | run => obtain ⟨_, _, _, _, _, hj, _⟩ := h; exact (List.getElem?_eq_some_iff.mp hj).1
  | deferFunc => obtain ⟨_, _, _, _, hj⟩ := h; exact (List.getElem?_eq_some_iff.mp hj).1

/-- Proof only: part of an invariant or simulation; models no code. -/
structure BInv (n : Both E V) : Prop where
  clean : ∀ j ∈ n.w.jobs, Clean j
  kids : ∀ i s, ∀ j ∈ n.kids i s, i < j ∧ j < n.w.jobs.length
  code : ∀ i s, (n.code i s).calls → (n.fn i s).calls
  made : ∀ i s, n.kids i s ≠ [] → (n.fn i s).calls

theorem BInv.start {n : Both E V} {kids : Nat → Part → List Nat} {code : Nat → Part → Body} (h : BInv n) (r d : Body) (ctx : Option E)
    (hk : ∀ i s, ∀ j ∈ kids i s, i < j ∧ j < n.w.jobs.length + 1) (hc : ∀ i s, (code i s).calls → (n.fn i s).calls)
    (hm : ∀ i s, kids i s ≠ [] → (n.fn i s).calls) : BInv ({ n with code := code, kids := kids }.start r d ctx) where
  clean := by
    intro j hj
    rcases List.mem_append.mp hj with hj | hj
    · exact h.clean j hj
    · simp only [List.mem_singleton] at hj; subst hj; rfl
  kids := by
    intro i s j hj
    simp only [Both.start, upd2] at hj
    split at hj
    · simp at hj
    · split at hj
      · simp at hj
      · have := hk i s j hj
        simp only [Both.start, List.length_append, List.length_singleton]; exact this
  code := by
    intro i s hi
    simp only [Both.start, upd2] at hi ⊢
    split at hi
    · rename_i e; rw [if_pos e]; exact hi
    · rename_i e
      rw [if_neg e]
      split at hi
      · rename_i e; rw [if_pos e]; exact hi
      · rename_i e; rw [if_neg e]; exact hc i s hi
  made := by
    intro i s hi
    simp only [Both.start, upd2] at hi ⊢
    split at hi
    · simp at hi
    · rename_i e
      rw [if_neg e]
      split at hi
      · simp at hi
      · rename_i e; rw [if_neg e]; exact hm i s hi

theorem b_inv {size : Int} {n : Both E V} (h : BReach size n) : BInv n := by
  induction h with
  | init hw =>
    unfold newWorker at hw
    split at hw
    · simp at hw
    · simp only [Option.some.injEq] at hw; subst hw
      exact ⟨by simp, by simp, by simp [Body.calls], by simp⟩
  | @call n r d ctx h hc ih =>
    exact BInv.start (n := n) ih r d ctx (fun i s j hj => by have := ih.kids i s j hj; omega) ih.code ih.made
  | cancel h hs ih =>
    cases hs with
    | pending i b e hc hj =>
      exact ⟨clean_set ih.clean (a := .pending (some e) b) (ih.clean (.pending none b) (List.mem_of_getElem? hj)), by simpa using ih.kids, ih.code, ih.made⟩
    | accepted i ctx0 b d ph m e hc hj hx =>
      obtain ⟨c1, c2, c3⟩ := ih.clean _ (List.mem_of_getElem? hj)
      exact ⟨clean_set ih.clean ⟨c1, c2, c3⟩, by simpa using ih.kids, ih.code, ih.made⟩
  | inner h hs ih =>
    cases hs with
    | own w' ho => exact ⟨clean_own ho ih.clean, by simpa [length_own ho] using ih.kids, ih.code, ih.made⟩
    | run i s r d k ctx hc hr hn hk =>
      have hf : (_ : Body).calls := ih.code i s (by rw [hk]; trivial)
      refine BInv.start ih r d ctx (fun x t j hj => ?_) (fun x t hx => ?_) (fun x t hx => ?_)
      · simp only [upd2] at hj
        split at hj
        · rename_i e
          rcases List.mem_cons.mp hj with rfl | hj
          · exact ⟨e.1 ▸ active_lt hr, Nat.lt_succ_self _⟩
          · have := ih.kids i s j hj; omega
        · have := ih.kids x t j hj; omega
      · simp only [upd2] at hx
        split at hx
        · rename_i e; rw [e.1, e.2]; exact hf
        · exact ih.code x t hx
      · simp only [upd2] at hx
        split at hx
        · rename_i e; rw [e.1, e.2]; exact hf
        · exact ih.made x t hx
    | wait i s k hc hr hn hk hd =>
      refine ⟨ih.clean, ih.kids, fun x t hx => ?_, ih.made⟩
      simp only [upd2] at hx
      split at hx
      · rename_i e; rw [e.1, e.2]; exact ih.code i s (by rw [hk]; exact hx)
      · exact ih.code x t hx
    | runReturns i ctx0 b d ph m e hc hj hg hn hk =>
      obtain ⟨c1, c2, c3⟩ := ih.clean _ (List.mem_of_getElem? hj)
      exact ⟨clean_set ih.clean ⟨c1, c2, by simp⟩, by simpa using ih.kids, ih.code, ih.made⟩
    | deferReturns i ctx0 b d m hc hj hn hk =>
      obtain ⟨c1, c2, c3⟩ := ih.clean _ (List.mem_of_getElem? hj)
      exact ⟨clean_set ih.clean ⟨c1, by simp, c3⟩, by simpa using ih.kids, ih.code, ih.made⟩

/-- **C145.** Functions that call `Run` of the worker do not end the program. -/
theorem C145_no_crash {size : Int} {n : Both E V} (h : BReach size n) : n.w.crashed = false := by
  refine C78_no_crash_partial (C145_worker h) fun ctx0 b d ph m hj => ?_
  obtain ⟨c1, c2, c3⟩ := (b_inv h).clean _ hj
  refine ⟨c2, fun p hp => ?_⟩
  obtain ⟨e, he⟩ := c3 _ (.inr hp)
  simp at he

/-! ### Every execution ends -/

/-- Proof only: part of a measure; models no code. -/
def Body.weight : Body → Nat
  | .ret => 0
  | .run r d k => 14 + r.weight + d.weight + k.weight
  | .wait k => 1 + k.weight

/-- Proof only: the sum of the weights of what the functions have still to do. -/
def bodies (c : Nat → Part → Body) : Nat → Nat
  | 0 => 0
  | m + 1 => bodies c m + (c m .run).weight + (c m .deferFunc).weight

/-- Proof only: part of a measure; models no code. -/
def Both.weight (n : Both E V) : Nat := n.w.weight + bodies n.code n.w.jobs.length

theorem bodies_congr {c c' : Nat → Part → Body} : ∀ m, (∀ i s, i < m → c' i s = c i s) → bodies c' m = bodies c m
  | 0, _ => rfl
  | m + 1, h => by simp only [bodies]; rw [bodies_congr m fun i s hi => h i s (by omega), h m .run (by omega), h m .deferFunc (by omega)]

theorem bodies_upd {c : Nat → Part → Body} {i : Nat} {s : Part} (k : Body) : ∀ m, i < m → bodies (upd2 c i s k) m + (c i s).weight = bodies c m + k.weight
  | 0, h => by omega
  | m + 1, h => by
    simp only [bodies]
    by_cases e : i = m
    · subst e
      rw [bodies_congr (c := c) i fun x t hx => upd2_ne c k (by omega)]
      cases s <;> simp [upd2] <;> omega
    · have := bodies_upd (c := c) (i := i) (s := s) k m (by omega)
      rw [upd2_ne c k (by omega), upd2_ne c k (by omega)]; omega

theorem cancelsB_weight {n n' : Both E V} (h : CancelsB n n') : n'.weight < n.weight := by
  have hl : n'.w.jobs.length = n.w.jobs.length := by cases h <;> simp
  have hc : n'.code = n.code := by cases h <;> rfl
  have := weight_lt (cancelsB_w h) hl
  simp only [Both.weight, hl, hc]
  omega

theorem startB_weight (n : Both E V) (r d : Body) (ctx : Option E) : (n.start r d ctx).weight ≤ n.weight + 13 + r.weight + d.weight := by
  have h1 : bodies (upd2 (upd2 n.code n.w.jobs.length .run r) n.w.jobs.length .deferFunc d) n.w.jobs.length = bodies n.code n.w.jobs.length :=
    bodies_congr _ fun i s hi => by rw [upd2_ne _ _ (by omega), upd2_ne _ _ (by omega)]
  have h2 : Job.weight (.pending ctx false : Job E V) ≤ 13 := by simp only [Job.weight]; split <;> omega
  have h3 : upd2 (upd2 n.code n.w.jobs.length .run r) n.w.jobs.length .deferFunc d n.w.jobs.length .run = r := by simp [upd2]
  have h4 : upd2 (upd2 n.code n.w.jobs.length .run r) n.w.jobs.length .deferFunc d n.w.jobs.length .deferFunc = d := by simp [upd2]
  simp only [Both.weight, Both.start, Worker.weight, List.length_append, List.length_singleton, bodies, h1, h3, h4, List.map_append, List.map_cons,
    List.map_nil, List.sum_append, List.sum_cons, List.sum_nil]
  by_cases hcr : n.w.crashed = true <;> simp only [hcr, Bool.false_eq_true, if_true, if_false] <;> omega

theorem innerB_weight {n n' : Both E V} (h : InnerB n n') : n'.weight < n.weight := by
  cases h with
  | own w' ho =>
    have := weight_lt (step_iff.mpr (.inl ho)) (length_own ho)
    simp only [Both.weight, length_own ho]
    omega
  | run i s r d k ctx hc hr hn hk =>
    have h1 := bodies_upd (c := n.code) (s := s) k _ (active_lt hr)
    have h2 := startB_weight { n with code := upd2 n.code i s k, kids := upd2 n.kids i s (n.w.jobs.length :: n.kids i s) } r d ctx
    rw [hk] at h1
    simp only [Body.weight] at h1
    simp only [Both.weight] at h2 ⊢
    omega
  | wait i s k hc hr hn hk hd =>
    have h1 := bodies_upd (c := n.code) (s := s) k _ (active_lt hr)
    rw [hk] at h1
    simp only [Body.weight] at h1
    simp only [Both.weight]
    omega
  | runReturns i ctx0 b d ph m e hc hj hg hn hk =>
    have := weight_lt (step_iff.mpr (.inr (.runEnds _ _ _ _ _ _ _ (.returned e) hc hj hg))) (by simp)
    simp only [Both.weight, List.length_set]
    omega
  | deferReturns i ctx0 b d m hc hj hn hk =>
    have := weight_lt (.deferReturn _ _ _ _ _ _ hc hj) (by simp)
    simp only [Both.weight, List.length_set]
    omega

/-- **C145.** Without new calls from outside every execution ends, whatever the schedule. -/
theorem C145_ends (n : Both E V) : Acc (fun n' n => InnerB n n' ∨ CancelsB n n') n := by
  have : ∀ k, ∀ n : Both E V, n.weight < k → Acc (fun n' n => InnerB n n' ∨ CancelsB n n') n := by
    intro k
    induction k with
    | zero => intro m h; omega
    | succ k ih =>
      refine fun m h => ⟨_, fun m' hs => ih m' ?_⟩
      rcases hs with hs | hs
      · have := innerB_weight hs; omega
      · have := cancelsB_weight hs; omega
  exact this _ n (Nat.lt_succ_self _)

/-! ### States in which nothing happens any more -/

theorem stuck_active [Nonempty E] {n : Both E V} (hc : n.w.crashed = false) (hs : ∀ n', ¬ InnerB n n') {i : Nat} {s : Part} (hr : n.active i s) :
    n.Waits i s := by
  refine ⟨hr, Classical.byContradiction fun hno => ?_⟩
  obtain ⟨hn, hno⟩ := not_or.mp hno
  cases hk : n.code i s with
  | ret =>
    cases s with
    | run =>
      obtain ⟨ctx0, b, d, ph, m, hj, hg⟩ := hr
      exact hs _ (.runReturns n i ctx0 b d ph m (Classical.choice ‹_›) hc hj hg hn hk)
    | deferFunc =>
      obtain ⟨ctx0, b, d, m, hj⟩ := hr
      exact hs _ (.deferReturns n i ctx0 b d m hc hj hn hk)
  | run r d k => exact hs _ (.run n i s r d k none hc hr hn hk)
  | wait k =>
    refine hs _ (.wait n i s k hc hr hn hk fun j hj => Classical.byContradiction fun hd => hno ⟨⟨k, hk⟩, j, hj, hd⟩)

theorem busy_holdsB [Nonempty E] {size : Int} {n : Both E V} (h : BReach size n) (hs : ∀ n', ¬ InnerB n n') {i : Nat} {j : Job E V}
    (hj : n.w.jobs[i]? = some j) (hb : j.busy = true) : n.Holds i := by
  have hc := C145_no_crash h
  cases j with
  | pending => simp [Job.busy] at hb
  | accepted ctx0 b d ph m =>
    have hm := List.mem_of_getElem? hj
    obtain ⟨c1, c2, c3⟩ := (b_inv h).clean _ hm
    obtain ⟨g1, g2, g3, g4⟩ := (w_inv (C145_worker h)).jobs _ hm
    by_cases hex : ph = .executing
    · subst hex
      exact .inl (stuck_active hc hs (s := .deferFunc) ⟨_, _, _, _, hj⟩)
    · have hd : d.caller = .wait ∧ d.ctx = none ∧ d.gor = .running := by
        simp only [Job.busy] at hb
        split at hb
        · exact absurd rfl hex
        · rename_i h1 h2 h3; exact ⟨h1, h2, h3⟩
        · rename_i h1 h2 h3
          obtain ⟨e, he⟩ := c3 _ (.inr h3)
          simp at he
        · simp at hb
      have hph : ph = .before := Classical.byContradiction fun hp => by
        obtain ⟨o, ho | ho⟩ := (g3 hp).2 <;> rw [hd.1] at ho <;> simp at ho
      subst hph
      exact .inr ⟨stuck_active hc hs (s := .run) ⟨_, _, _, _, _, hj, hd.2.2⟩, _, _, _, _, hj, hd.2.1⟩

/-! ## Theorems -/

/-- **C145.** How an execution ends: every call is over, or a call of `Run` waits for a slot and all slots are held by functions – `run` or `deferFunc` –
that wait for the worker. -/
theorem C145_exact [Nonempty E] {size : Int} {n : Both E V} (h : BReach size n) (hs : ∀ n', ¬ InnerB n n') :
    (∀ i, i < n.w.jobs.length → n.Over i) ∨
    (∃ i, n.w.waiting i) ∧ ∃ l : List Nat, l.Nodup ∧ (l.length : Int) = size ∧ ∀ i ∈ l, n.Holds i := by
  have hc := C145_no_crash h
  have hw := C145_worker h
  have hown : ∀ w', ¬ Own n.w w' := fun w' ho => hs _ (.own n w' ho)
  by_cases hp : ∃ i, n.w.waiting i
  · right
    refine ⟨hp, (List.range n.w.jobs.length).filter fun i => (n.w.jobs[i]?).any Job.busy, (List.nodup_range).filter _, ?_, ?_⟩
    · obtain ⟨i, ctx, b, hj⟩ := hp
      rw [range_filter]
      exact C116_waits hw hc hown hj
    · intro i hi
      have hb := (List.mem_filter.mp hi).2
      cases hj : n.w.jobs[i]? with
      | none => simp [hj] at hb
      | some j => exact busy_holdsB h hs hj (by simpa [hj] using hb)
  · left
    have key : ∀ k i, n.w.jobs.length - i ≤ k → i < n.w.jobs.length → n.Over i := by
      intro k
      induction k with
      | zero => intro i h1 h2; omega
      | succ k ih =>
        intro i hk hi
        have hidle : ∀ s, ¬ n.active i s := fun s ha => by
          rcases (stuck_active hc hs ha).2 with ⟨j, l, -, h1⟩ | ⟨-, j, hj, h1⟩
          · exact hp ⟨j, h1⟩
          · have hlt := (b_inv h).kids i s j hj
            obtain ⟨ctx0, b, d, e, hj', -⟩ := ih j (by omega) hlt.2
            exact h1 ⟨_, _, _, _, hj'⟩
        cases hj : n.w.jobs[i]? with
        | none => rw [List.getElem?_eq_none_iff] at hj; omega
        | some j =>
          cases j with
          | pending ctx b => exact absurd ⟨i, _, _, hj⟩ hp
          | accepted ctx0 b d ph m =>
            rcases C116_accepted hw hc hown hj with hb | ⟨rfl, rfl, e, h1, h2⟩
            · rcases busy_holdsB h hs hj hb with h1 | ⟨h1, -⟩
              · exact absurd h1.1 (hidle _)
              · exact absurd h1.1 (hidle _)
            · exact ⟨_, _, _, _, hj, h1, h2, fun hg => hidle .run ⟨_, _, _, _, _, hj, hg⟩⟩
    exact fun i hi => key _ i (Nat.le_refl _) hi

/-- A function that waits for the worker has called `Run`. -/
theorem waits_calls {size : Int} {n : Both E V} (h : BReach size n) {i : Nat} {s : Part} (hh : n.Waits i s) : (n.fn i s).calls := by
  refine (b_inv h).made i s fun hk => ?_
  rcases hh.2 with ⟨j, l, h3, -⟩ | ⟨-, j, hj, -⟩
  · simp [hk] at h3
  · simp [hk] at hj

/-- **C145.** If the calls with an executing function that calls `Run` – a `run` whose context is not done or a `deferFunc` – are fewer than the slots,
every call is over in the end. -/
theorem C145_over [Nonempty E] {size : Int} {n : Both E V} (h : BReach size n) (hs : ∀ n', ¬ InnerB n n') {l : List Nat} (hl : (l.length : Int) < size)
    (hrun : ∀ i ctx0 b d ph m, n.w.jobs[i]? = some (.accepted ctx0 b d ph m) → d.gor = .running → d.ctx = none → (n.fn i .run).calls → i ∈ l)
    (hdefer : ∀ i ctx0 b d m, n.w.jobs[i]? = some (.accepted ctx0 b d .executing m) → (n.fn i .deferFunc).calls → i ∈ l) {i : Nat}
    (hi : i < n.w.jobs.length) : n.Over i := by
  rcases C145_exact h hs with hh | ⟨-, l', h1, h2, h3⟩
  · exact hh i hi
  · exfalso
    have : l'.length ≤ l.length := by
      refine (List.subperm_of_subset h1 fun x hx => ?_).length_le
      rcases h3 x hx with a | ⟨a, _, _, _, _, hj, hx⟩
      · obtain ⟨_, _, _, _, hj⟩ := a.1
        exact hdefer _ _ _ _ _ hj (waits_calls h a)
      · obtain ⟨_, _, _, _, _, hj', hg⟩ := a.1
        rw [hj] at hj'
        simp only [Option.some.injEq, Job.accepted.injEq] at hj'
        obtain ⟨_, _, rfl, _, _⟩ := hj'
        exact hrun _ _ _ _ _ _ hj hg hx (waits_calls h a)
    omega

/-- **C145.** If all contexts are done and no executing `deferFunc` calls `Run`, every call is over in the end – also where `run`s have called `Run`. -/
theorem C145_cancelled [Nonempty E] {size : Int} {n : Both E V} (h : BReach size n) (hsize : 1 ≤ size) (hs : ∀ n', ¬ InnerB n n')
    (hd : ∀ ctx0 b d ph m, .accepted ctx0 b d ph m ∈ n.w.jobs → d.ctx ≠ none)
    (hdefer : ∀ i ctx0 b d m, n.w.jobs[i]? = some (.accepted ctx0 b d .executing m) → ¬ (n.fn i .deferFunc).calls) {i : Nat} (hi : i < n.w.jobs.length) :
    n.Over i :=
  C145_over h hs (l := []) (by simp; omega) (fun _ _ _ _ _ _ hj _ hx _ => absurd hx (hd _ _ _ _ _ (List.mem_of_getElem? hj)))
    (fun _ _ _ _ _ hj hc => absurd hc (hdefer _ _ _ _ _ hj)) hi

/-! ## Examples -/

/-- The end of an execution on a worker of size 2: `deferFunc` of call 0 has called `Run` and has waited for the call, after its `run` had waited. -/
def endB : Both Nat Nat :=
  ⟨⟨⟨[], 2, false⟩, [overJob 4, overJob 3], false⟩, upd2 (upd2 (fun _ _ => .ret) 0 .run (.wait .ret)) 0 .deferFunc (.run .ret .ret (.wait .ret)),
    fun _ _ => .ret, upd2 (fun _ _ => []) 0 .deferFunc [1]⟩

/-- Proof only: nobody is inside a call of `Run` if no call waits. -/
theorem not_inRun {n : Both E V} {i : Nat} {s : Part} (h : ∀ ctx b, .pending ctx b ∉ n.w.jobs) : ¬ n.inRun i s := by
  rintro ⟨j, l, -, ctx, b, hj⟩
  exact h ctx b (List.mem_of_getElem? hj)

theorem demoB : BReach 2 endB := by
  have h0 : BReach 2 (⟨⟨Chan.make 2, [], false⟩, fun _ _ => .ret, fun _ _ => .ret, fun _ _ => []⟩ : Both Nat Nat) := .init rfl
  have h1 := h0.call (.wait .ret) (.run .ret .ret (.wait .ret)) none rfl
  have h2 := h1.inner (.own _ _ (.accept _ 0 none false _ rfl rfl rfl))
  have h3 := h2.inner (.own _ _ (.doOwn _ 0 none false _ _ .before 0 rfl rfl ⟨.entryGo _ rfl rfl, rfl, id⟩ (by simp)))
  have h4 := h3.inner (.own _ _ (.doOwn _ 0 none false _ _ .before 0 rfl rfl ⟨.spawn _ rfl, rfl, fun _ => rfl⟩ (by simp)))
  have h4' := h4.inner (.wait _ 0 .run .ret rfl ⟨_, _, _, _, _, rfl, rfl⟩ (by rintro ⟨j, l, e, _⟩; exact absurd e (by simp [upd2, Both.start])) rfl
    (fun j hj => absurd (show j ∈ ([] : List Nat) from hj) (by simp)))
  have h5 := h4'.inner (.runReturns _ 0 none false _ .before 0 4 rfl rfl rfl (by rintro ⟨j, l, e, _⟩; exact absurd e (by simp [upd2, Both.start])) rfl)
  have h6 := h5.inner (.own _ _ (.doOwn _ 0 none false _ _ .before 0 rfl rfl ⟨.deliverRet _ 4 _ rfl rfl, rfl, fun h => by simp at h⟩ (by simp)))
  have h7 := h6.inner (.own _ _ (.doOwn _ 0 none false _ _ .before 0 rfl rfl ⟨.recvDone _ 4 _ rfl rfl, rfl, id⟩ (by simp)))
  have h8 := h7.inner (.own _ _ (.deferCall _ 0 none _ 0 _ rfl rfl rfl))
  have h9 := h8.inner (.run _ 0 .deferFunc .ret .ret (.wait .ret) none rfl ⟨_, _, _, _, rfl⟩ (by rintro ⟨j, l, e, _⟩; exact absurd e (by simp [upd2, Both.start])) rfl)
  have g2 := h9.inner (.own _ _ (.accept _ 1 none false _ rfl rfl rfl))
  have g3 := g2.inner (.own _ _ (.doOwn _ 1 none false _ _ .before 0 rfl rfl ⟨.entryGo _ rfl rfl, rfl, id⟩ (by simp)))
  have g4 := g3.inner (.own _ _ (.doOwn _ 1 none false _ _ .before 0 rfl rfl ⟨.spawn _ rfl, rfl, fun _ => rfl⟩ (by simp)))
  have g5 := g4.inner (.runReturns _ 1 none false _ .before 0 3 rfl rfl rfl (by rintro ⟨j, l, e, _⟩; exact absurd e (by simp [upd2, Both.start])) rfl)
  have g6 := g5.inner (.own _ _ (.doOwn _ 1 none false _ _ .before 0 rfl rfl ⟨.deliverRet _ 3 _ rfl rfl, rfl, fun h => by simp at h⟩ (by simp)))
  have g7 := g6.inner (.own _ _ (.doOwn _ 1 none false _ _ .before 0 rfl rfl ⟨.recvDone _ 3 _ rfl rfl, rfl, id⟩ (by simp)))
  have g8 := g7.inner (.own _ _ (.deferCall _ 1 none _ 0 _ rfl rfl rfl))
  have g9 := g8.inner (.deferReturns _ 1 none false _ 1 rfl rfl (by rintro ⟨j, l, e, _⟩; exact absurd e (by simp [upd2, Both.start])) rfl)
  have g10 := g9.inner (.own _ _ (.release _ 1 none false _ _ 1 _ _ rfl rfl rfl rfl (.leave _ _ rfl) rfl))
  have g11 := g10.inner (.wait _ 0 .deferFunc .ret rfl ⟨_, _, _, _, rfl⟩ (not_inRun fun ctx b hm => by simp [Both.start] at hm) rfl (fun j hj => by
    have e : j = 1 := List.mem_singleton.mp (show j ∈ [1] from hj)
    subst e; exact ⟨_, _, _, _, rfl⟩))
  have g12 := g11.inner (.deferReturns _ 0 none false _ 1 rfl rfl (not_inRun fun ctx b hm => by simp [Both.start] at hm) rfl)
  have g13 := g12.inner (.own _ _ (.release _ 0 none false _ _ 1 _ _ rfl rfl rfl rfl (.leave _ _ rfl) rfl))
  refine cast (congrArg _ ?_) g13
  simp only [endB, Both.start, Both.mk.injEq]
  refine ⟨rfl, ?_, ?_, ?_⟩ <;> (funext i s; rcases i with _ | _ | i <;> cases s <;> rfl)

theorem endB_stuck (n' : Both Nat Nat) : ¬ InnerB endB n' := by
  have hact : ∀ i s, ¬ endB.active i s := by
    intro i s
    rcases i with _ | _ | i <;> cases s <;> simp [Both.active, Worker.runs, Worker.finishing, endB, overJob]
  intro hs
  cases hs with
  | own w' ho => exact endNest_stuck _ (.own endNest w' ho)
  | run i s r d k ctx hc hr hn hk => exact hact _ _ hr
  | wait i s k hc hr hn hk hd => exact hact _ _ hr
  | runReturns i ctx0 b d ph m e hc hj hg hn hk => exact hact i .run ⟨_, _, _, _, _, hj, hg⟩
  | deferReturns i ctx0 b d m hc hj hn hk => exact hact i .deferFunc ⟨_, _, _, _, hj⟩

example : WReach 2 endB.w := C145_worker demoB
example : endB.w.crashed = false := C145_no_crash demoB
example : Acc (fun n' n => InnerB n n' ∨ CancelsB n n') endB := C145_ends _
example : (∀ i, i < 2 → endB.Over i) ∨ (∃ i, endB.w.waiting i) ∧ ∃ l : List Nat, l.Nodup ∧ (l.length : Int) = 2 ∧ ∀ i ∈ l, endB.Holds i :=
  C145_exact demoB endB_stuck
example : endB.Over 0 := by
  refine C145_over demoB endB_stuck (l := []) (by decide) (fun i _ _ d _ _ hj hg => ?_) (fun i _ _ d _ hj => ?_) (by decide)
  · rcases i with _ | _ | i <;> simp [endB, overJob] at hj
    · obtain ⟨_, _, rfl, _⟩ := hj; simp at hg
    · obtain ⟨_, _, rfl, _⟩ := hj; simp at hg
  · rcases i with _ | _ | i <;> simp [endB, overJob] at hj

/-- A worker of size 2 with one slot held by a `run` and the other one by a `deferFunc`; both are inside a call of `Run`. -/
def mixed : Both Nat Nat :=
  ⟨⟨⟨[(), ()], 2, false⟩, [.accepted none false ⟨none, Chan.make 1, Chan.make 1, .wait, .running, 0, true⟩ .before 0, finJob, .pending none false,
      .pending none false], false⟩,
    upd2 (upd2 (fun _ _ => .ret) 0 .run (.run .ret .ret .ret)) 1 .deferFunc (.run .ret .ret .ret), fun _ _ => .ret,
    upd2 (upd2 (fun _ _ => []) 0 .run [2]) 1 .deferFunc [3]⟩

theorem mixed_reach : BReach 2 mixed := by
  have h0 : BReach 2 (⟨⟨Chan.make 2, [], false⟩, fun _ _ => .ret, fun _ _ => .ret, fun _ _ => []⟩ : Both Nat Nat) := .init rfl
  have h1 := h0.call (.run .ret .ret .ret) .ret none rfl
  have h2 := h1.call .ret (.run .ret .ret .ret) (some 7) rfl
  have h3 := h2.inner (.own _ _ (.accept _ 0 none false _ rfl rfl rfl))
  have h4 := h3.inner (.own _ _ (.doOwn _ 0 none false _ _ .before 0 rfl rfl ⟨.entryGo _ rfl rfl, rfl, id⟩ (by simp)))
  have h5 := h4.inner (.own _ _ (.doOwn _ 0 none false _ _ .before 0 rfl rfl ⟨.spawn _ rfl, rfl, fun _ => rfl⟩ (by simp)))
  have h6 := h5.inner (.own _ _ (.accept _ 1 (some 7) false _ rfl rfl rfl))
  have h7 := h6.inner (.own _ _ (.doOwn _ 1 (some 7) false _ _ .before 0 rfl rfl ⟨.entryDone _ 7 rfl rfl, rfl, id⟩ (by simp)))
  have h8 := h7.inner (.own _ _ (.deferCall _ 1 (some 7) _ 0 _ rfl rfl rfl))
  have h9 := h8.inner (.run _ 0 .run .ret .ret .ret none rfl ⟨_, _, _, _, _, rfl, rfl⟩ (by rintro ⟨j, l, e, _⟩; exact absurd e (by simp [upd2, Both.start])) rfl)
  have g1 := h9.inner (.run _ 1 .deferFunc .ret .ret .ret none rfl ⟨_, _, _, _, rfl⟩ (by rintro ⟨j, l, e, _⟩; exact absurd e (by simp [upd2, Both.start])) rfl)
  refine cast (congrArg _ ?_) g1
  simp only [mixed, Both.start, Both.mk.injEq]
  refine ⟨rfl, ?_, ?_, ?_⟩ <;> (funext i s; rcases i with _ | _ | _ | _ | i <;> cases s <;> rfl)

/-- **C145.** Not every execution ends with all calls over: a `run` and a `deferFunc` that call `Run` jam a worker of size 2. -/
theorem C145_mixed : ∃ n : Both Nat Nat, BReach 2 n ∧ n.Waits 0 .run ∧ n.Waits 1 .deferFunc ∧ n.Holds 0 ∧ n.Holds 1 ∧ ∀ n', ¬ InnerB n n' := by
  have w0 : mixed.Waits 0 .run := ⟨⟨_, _, _, _, _, rfl, rfl⟩, .inl ⟨2, [], rfl, _, _, rfl⟩⟩
  have w1 : mixed.Waits 1 .deferFunc := ⟨⟨_, _, _, _, rfl⟩, .inl ⟨3, [], rfl, _, _, rfl⟩⟩
  refine ⟨mixed, mixed_reach, w0, w1, .inr ⟨w0, _, _, _, _, rfl, rfl⟩, .inl w1, fun n' hs => ?_⟩
  have hin : ∀ i s, mixed.active i s → mixed.inRun i s := by
    intro i s ha
    rcases i with _ | _ | _ | _ | i <;> cases s
    · exact ⟨2, [], rfl, _, _, rfl⟩
    · simp [Both.active, Worker.finishing, mixed] at ha
    · simp [Both.active, Worker.runs, mixed, finJob] at ha
    · exact ⟨3, [], rfl, _, _, rfl⟩
    all_goals simp [Both.active, Worker.runs, Worker.finishing, mixed] at ha
  cases hs with
  | own w' ho =>
    cases ho with
    | accept i ctx b c h1 h2 h3 => simp [mixed, Chan.send] at h3
    | doOwn i ctx0 b d d' ph m h1 h2 h3 h4 =>
      obtain ⟨g1, g2, g3⟩ := h3
      rcases i with _ | _ | _ | _ | i <;> simp [mixed, finJob] at h2
      · obtain ⟨-, -, rfl, -⟩ := h2
        cases g1 <;> simp_all [Chan.recv, Chan.make]
      · obtain ⟨-, -, rfl, -⟩ := h2
        cases g1 <;> simp_all
    | deferCall i ctx0 d m o h1 h2 h3 =>
      rcases i with _ | _ | _ | _ | i <;> simp [mixed, finJob] at h2
      obtain ⟨_, rfl, _⟩ := h2; simp at h3
    | deferNil i ctx0 d m o h1 h2 h3 => rcases i with _ | _ | _ | _ | i <;> simp [mixed, finJob] at h2
    | release i ctx0 b d d' m c o h1 h2 h3 => rcases i with _ | _ | _ | _ | i <;> simp [mixed, finJob] at h2
  | run i s r d k ctx hc hr hn hk => exact hn (hin _ _ hr)
  | wait i s k hc hr hn hk hd => exact hn (hin _ _ hr)
  | runReturns i ctx0 b d ph m e hc hj hg hn hk => exact hn (hin i .run ⟨_, _, _, _, _, hj, hg⟩)
  | deferReturns i ctx0 b d m hc hj hn hk => exact hn (hin i .deferFunc ⟨_, _, _, _, hj⟩)

/-- As `cancelledNest`: `run` has called `Run` on a worker of size 1, so nothing could happen any more; then the contexts became done. -/
def cancelledB : Both Nat Nat :=
  ⟨cancelledNest.w, upd2 (fun _ _ => .ret) 0 .run (.run .ret .ret .ret), fun _ _ => .ret, upd2 (fun _ _ => []) 0 .run [1]⟩

theorem demoCancelledB : BReach 1 cancelledB := by
  have h0 : BReach 1 (⟨⟨Chan.make 1, [], false⟩, fun _ _ => .ret, fun _ _ => .ret, fun _ _ => []⟩ : Both Nat Nat) := .init rfl
  have g1 := h0.call (.run .ret .ret .ret) .ret none rfl
  have g2 := g1.inner (.own _ _ (.accept _ 0 none false _ rfl rfl rfl))
  have g3 := g2.inner (.own _ _ (.doOwn _ 0 none false _ _ .before 0 rfl rfl ⟨.entryGo _ rfl rfl, rfl, id⟩ (by simp)))
  have g4 := g3.inner (.own _ _ (.doOwn _ 0 none false _ _ .before 0 rfl rfl ⟨.spawn _ rfl, rfl, fun _ => rfl⟩ (by simp)))
  have g5 := g4.inner (.run _ 0 .run .ret .ret .ret none rfl ⟨_, _, _, _, _, rfl, rfl⟩ (by rintro ⟨j, l, e, _⟩; exact absurd e (by simp [upd2, Both.start])) rfl)
  have h1 := g5.cancel (.accepted _ 0 none false _ .before 0 7 rfl rfl rfl)
  have h2 := h1.cancel (.pending _ 1 false 8 rfl rfl)
  have h3 := h2.inner (.own _ _ (.doOwn _ 0 none false _ _ .before 0 rfl rfl ⟨.recvCtx _ 7 rfl rfl, rfl, id⟩ (by simp)))
  have h4 := h3.inner (.own _ _ (.deferCall _ 0 none _ 0 _ rfl rfl rfl))
  have h5 := h4.inner (.deferReturns _ 0 none false _ 1 rfl rfl (by rintro ⟨j, l, e, _⟩; exact absurd e (by simp [upd2, Both.start])) rfl)
  have h6 := h5.inner (.own _ _ (.release _ 0 none false _ _ 1 _ _ rfl rfl rfl rfl (.leave _ _ rfl) rfl))
  have h7 := h6.inner (.own _ _ (.accept _ 1 (some 8) false _ rfl rfl rfl))
  have h8 := h7.inner (.own _ _ (.doOwn _ 1 (some 8) false _ _ .before 0 rfl rfl ⟨.entryDone _ 8 rfl rfl, rfl, id⟩ (by simp)))
  have h9 := h8.inner (.own _ _ (.deferCall _ 1 (some 8) _ 0 _ rfl rfl rfl))
  have h10 := h9.inner (.deferReturns _ 1 (some 8) false _ 1 rfl rfl (by rintro ⟨j, l, e, _⟩; exact absurd e (by simp [upd2, Both.start])) rfl)
  have h11 := h10.inner (.own _ _ (.release _ 1 (some 8) false _ _ 1 _ _ rfl rfl rfl rfl (.leave _ _ rfl) rfl))
  have h12 := h11.inner (.runReturns _ 0 none false _ .after 1 4 rfl rfl rfl (not_inRun fun ctx b hm => by simp [Both.start] at hm) rfl)
  have h13 := h12.inner (.own _ _ (.doOwn _ 0 none false _ _ .after 1 rfl rfl ⟨.deliverRet _ 4 _ rfl rfl, rfl, fun h => by simp at h⟩ (by simp)))
  refine cast (congrArg _ ?_) h13
  simp only [cancelledB, Both.start, Both.mk.injEq]
  refine ⟨rfl, ?_, ?_, ?_⟩ <;> (funext i s; rcases i with _ | _ | i <;> cases s <;> rfl)

example : cancelledB.Over 0 := by
  have hw : cancelledB.w = cancelledNest.w := rfl
  have hjobs : ∀ j ∈ cancelledNest.w.jobs, ∃ (ctx0 : Option Nat) (d : DoSt Nat Nat) (o : Out Nat Nat), j = .accepted ctx0 false d .after 1 ∧
      d.caller = .left o ∧ (d.gor = .none ∨ ∃ e, d.gor = .ended (.returned e)) := by
    intro j hj
    simp only [cancelledNest, List.mem_cons, List.not_mem_nil, or_false] at hj
    rcases hj with rfl | rfl
    · exact ⟨_, _, _, rfl, rfl, .inr ⟨_, rfl⟩⟩
    · exact ⟨_, _, _, rfl, rfl, .inl rfl⟩
  have hact : ∀ i s, ¬ cancelledB.active i s := by
    intro i s
    rcases i with _ | _ | i <;> cases s <;> simp [Both.active, Worker.runs, Worker.finishing, hw, cancelledNest]
  refine C145_cancelled demoCancelledB (by decide) (fun n' hs => ?_) ?_ (fun i _ _ _ _ hj => absurd ⟨_, _, _, _, hj⟩ (hact i .deferFunc)) (by decide)
  · cases hs with
    | own w' ho => exact over_stuck hjobs _ (.own cancelledNest w' ho)
    | run i s r d k ctx hc hr hn hk => exact hact _ _ hr
    | wait i s k hc hr hn hk hd => exact hact _ _ hr
    | runReturns i ctx0 b d ph m e hc hj hg hn hk => exact hact i .run ⟨_, _, _, _, _, hj, hg⟩
    | deferReturns i ctx0 b d m hc hj hn hk => exact hact i .deferFunc ⟨_, _, _, _, hj⟩
  · intro ctx0 b d ph m hj
    simp only [hw, cancelledNest, List.mem_cons, List.not_mem_nil, or_false, Job.accepted.injEq] at hj
    rcases hj with ⟨_, _, rfl, _⟩ | ⟨_, _, rfl, _⟩ <;> simp

end Verif.XWorker

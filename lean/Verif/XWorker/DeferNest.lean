import Verif.XWorker.Nest
/-!
# `deferFunc`s that call `Run` of the same `Worker` (C144)

The model of `xworker/xworker.go` of `Model.lean`, together with the code of the `deferFunc`s given to `Run`. A `deferFunc` makes calls of `Run` on the
worker that executes it, in any number and with `deferFunc`s that do the same, to any depth; between them it may wait until the `deferFunc`s of the calls
it has made so far have returned; then it returns. The slot is given back only after that (xworker.go:43-46). The states are those of `Nest.lean`, where
`fn` and `code` are now the code of the `deferFunc`s. Simplifications: the functions `run` return, do not panic and make no calls of the worker (these are
in C125); `deferFunc` is not nil and does not panic.
-/
namespace Verif.XWorker
open Verif.Go Verif.XTask

variable {E V : Type}

/-! ## Model -/

/-- The `deferFunc` of call `i` is executing (xworker.go:44). -/
def Nest.finishing (n : Nest E V) (i : Nat) : Bool :=
  match n.w.jobs[i]? with
  | some (.accepted _ _ _ .executing _) => true
  | _ => false

/-- What the worker and the functions in it do: xworker.go:36-48 together with the code of the `deferFunc`s. -/
inductive InnerD : Nest E V → Nest E V → Prop where
  /-- a step of the worker itself -/
  | own (n : Nest E V) (w' : Worker E V) : Own n.w w' → InnerD n { n with w := w' }
  /-- `run` returns -/
  | runEnds (n : Nest E V) (i : Nat) (ctx0 : Option E) (b : Bool) (d : DoSt E V) (ph : Phase) (m : Nat) (e : E) : n.w.crashed = false →
      n.w.jobs[i]? = some (.accepted ctx0 b d ph m) → d.gor = .running →
      InnerD n { n with w := { n.w with jobs := n.w.jobs.set i (.accepted ctx0 b { d with gor := .finished (.returned e) } ph m) } }
  /-- a `deferFunc` calls `Run` -/
  | run (n : Nest E V) (i : Nat) (f k : Code) (ctx : Option E) : n.w.crashed = false → n.finishing i = true → n.inRun i = false → n.code i = .run f k →
      InnerD n ({ n with code := upd n.code i k, kids := upd n.kids i (n.w.jobs.length :: n.kids i) }.start f ctx)
  /-- a `deferFunc` has waited for the `deferFunc`s of its calls -/
  | wait (n : Nest E V) (i : Nat) (k : Code) : n.w.crashed = false → n.finishing i = true → n.inRun i = false → n.code i = .wait k →
      (∀ j ∈ n.kids i, n.deferred j = true) → InnerD n { n with code := upd n.code i k }
  /-- a `deferFunc` returns -/
  | returns (n : Nest E V) (i : Nat) (ctx0 : Option E) (b : Bool) (d : DoSt E V) (m : Nat) : n.w.crashed = false →
      n.w.jobs[i]? = some (.accepted ctx0 b d .executing m) → n.inRun i = false → n.code i = .ret →
      InnerD n { n with w := { n.w with jobs := n.w.jobs.set i (.accepted ctx0 b d .after m) } }

/-- Anything that can happen: `Run` is called from outside, a context becomes done, or the worker and the functions in it go on. -/
inductive AnyD : Nest E V → Nest E V → Prop where
  | call (n : Nest E V) (f : Code) (ctx : Option E) : n.w.crashed = false → AnyD n (n.start f ctx)
  | cancel {n n' : Nest E V} : Cancels n n' → AnyD n n'
  | inner {n n' : Nest E V} : InnerD n n' → AnyD n n'

/-- All executions. -/
inductive DReach (size : Int) : Nest E V → Prop where
  | init {w : Worker E V} : newWorker size = some w → DReach size ⟨w, fun _ => .ret, fun _ => .ret, fun _ => []⟩
  | step {n n' : Nest E V} : DReach size n → AnyD n n' → DReach size n'

/-! ## Specification -/

/-- What follows a state. -/
inductive OnwardD : Nest E V → Nest E V → Prop where
  | refl (n : Nest E V) : OnwardD n n
  | step {n n' n'' : Nest E V} : OnwardD n n' → AnyD n' n'' → OnwardD n n''

/-- The `deferFunc` of call `i` holds its slot and waits for the worker: it is executing and is inside a call of `Run` that has found no free slot, or it
waits for the `deferFunc` of a call it has made. -/
def Nest.HoldsD (n : Nest E V) (i : Nat) : Prop :=
  n.finishing i = true ∧ (n.inRun i = true ∨ (∃ k, n.code i = .wait k) ∧ ∃ j ∈ n.kids i, n.deferred j = false)

/-! ## Proofs -/

theorem finishing_iff {n : Nest E V} {i : Nat} : n.finishing i = true ↔ ∃ ctx0 b d m, n.w.jobs[i]? = some (.accepted ctx0 b d .executing m) := by
  unfold Nest.finishing
  constructor
  · intro h
    split at h
    · rename_i ctx0 b d m hj; exact ⟨_, _, _, _, hj⟩
    · simp at h
  · rintro ⟨_, _, _, _, h⟩; simp [h]

theorem pending_iff {n : Nest E V} {i : Nat} : n.pending i = true ↔ ∃ ctx b, n.w.jobs[i]? = some (.pending ctx b) := by
  unfold Nest.pending
  constructor
  · intro h
    split at h
    · rename_i ctx b hj; exact ⟨_, _, hj⟩
    · simp at h
  · rintro ⟨_, _, h⟩; simp [h]

theorem finishing_lt {n : Nest E V} {i : Nat} (h : n.finishing i = true) : i < n.w.jobs.length := by
  obtain ⟨_, _, _, _, hj⟩ := finishing_iff.mp h
  exact (List.getElem?_eq_some_iff.mp hj).1

theorem innerD_w {n n' : Nest E V} (h : InnerD n n') : WStep n.w n'.w ∨ n'.w = n.w := by
  cases h with
  | own w' h => exact .inl (step_iff.mpr (.inl h))
  | runEnds i ctx0 b d ph m e hc hj hg => exact .inl (step_iff.mpr (.inr (.runEnds _ _ _ _ _ _ _ _ hc hj hg)))
  | run i f k ctx hc hr hn hk => exact .inl (.call _ ctx false hc)
  | wait i k hc hr hn hk hd => exact .inr rfl
  | returns i ctx0 b d m hc hj hn hk => exact .inl (.deferReturn _ _ _ _ _ _ hc hj)

/-- **C144.** The worker does what it does with any other functions: the states of the worker are states of the model of C13, C14, C78 and C116. -/
theorem C144_worker {size : Int} {n : Nest E V} (h : DReach size n) : WReach size n.w := by
  induction h with
  | init hw => exact .init hw
  | step h hs ih =>
    cases hs with
    | call f ctx hc => exact ih.step (.call _ ctx false hc)
    | cancel hs => exact ih.step (cancels_w hs)
    | inner hs =>
      rcases innerD_w hs with hw | hw
      · exact ih.step hw
      · rw [hw]; exact ih

theorem d_inv {size : Int} {n : Nest E V} (h : DReach size n) : NInv n := by
  induction h with
  | init hw =>
    unfold newWorker at hw
    split at hw
    · simp at hw
    · simp only [Option.some.injEq] at hw; subst hw
      exact ⟨by simp, by simp, by simp [Code.calls], by simp⟩
  | @step n _ h hs ih =>
    cases hs with
    | call f ctx hc => exact NInv.start (n := n) ih f ctx (fun i j hj => by have := ih.kids i j hj; omega) ih.code ih.made
    | cancel hs =>
      cases hs with
      | pending i b e hc hj =>
        exact ⟨clean_set ih.clean (a := .pending (some e) b) (ih.clean (.pending none b) (List.mem_of_getElem? hj)), by simpa using ih.kids, ih.code, ih.made⟩
      | accepted i ctx0 b d ph m e hc hj hx =>
        obtain ⟨c1, c2, c3⟩ := ih.clean _ (List.mem_of_getElem? hj)
        exact ⟨clean_set ih.clean ⟨c1, c2, c3⟩, by simpa using ih.kids, ih.code, ih.made⟩
    | inner hs =>
      cases hs with
      | own w' ho => exact ⟨clean_own ho ih.clean, by simpa [length_own ho] using ih.kids, ih.code, ih.made⟩
      | runEnds i ctx0 b d ph m e hc hj hg =>
        obtain ⟨c1, c2, c3⟩ := ih.clean _ (List.mem_of_getElem? hj)
        exact ⟨clean_set ih.clean ⟨c1, c2, by simp⟩, by simpa using ih.kids, ih.code, ih.made⟩
      | run i f k ctx hc hr hn hk =>
        have hf : (_ : Code).calls = true := ih.code i (by rw [hk]; rfl)
        refine NInv.start ih f ctx (fun x j hj => ?_) (fun x hx => ?_) (fun x hx => ?_)
        · simp only [upd] at hj
          split at hj
          · rename_i e
            rcases List.mem_cons.mp hj with rfl | hj
            · exact ⟨e ▸ finishing_lt hr, Nat.lt_succ_self _⟩
            · have := ih.kids i j hj; omega
          · have := ih.kids x j hj; omega
        · simp only [upd] at hx
          split at hx
          · rename_i e; rw [e]; exact hf
          · exact ih.code x hx
        · simp only [upd] at hx
          split at hx
          · rename_i e; rw [e]; exact hf
          · exact ih.made x hx
      | wait i k hc hr hn hk hd =>
        refine ⟨ih.clean, ih.kids, fun x hx => ?_, ih.made⟩
        simp only [upd] at hx
        split at hx
        · rename_i e; rw [e]; exact ih.code i (by rw [hk]; exact hx)
        · exact ih.code x hx
      | returns i ctx0 b d m hc hj hn hk =>
        obtain ⟨c1, c2, c3⟩ := ih.clean _ (List.mem_of_getElem? hj)
        exact ⟨clean_set ih.clean ⟨c1, by simp, c3⟩, by simpa using ih.kids, ih.code, ih.made⟩

/-- **C144.** `deferFunc`s that call `Run` of the worker do not end the program. -/
theorem C144_no_crash {size : Int} {n : Nest E V} (h : DReach size n) : n.w.crashed = false := by
  refine C78_no_crash_partial (C144_worker h) fun ctx0 b d ph m hj => ?_
  obtain ⟨c1, c2, c3⟩ := (d_inv h).clean _ hj
  refine ⟨c2, fun p hp => ?_⟩
  obtain ⟨e, he⟩ := c3 _ (.inr hp)
  simp at he

/-! ### Every execution ends -/

theorem innerD_weight {n n' : Nest E V} (h : InnerD n n') : n'.weight < n.weight := by
  cases h with
  | own w' ho =>
    have := weight_lt (step_iff.mpr (.inl ho)) (length_own ho)
    simp only [Nest.weight, length_own ho]
    omega
  | runEnds i ctx0 b d ph m e hc hj hg =>
    have := weight_lt (step_iff.mpr (.inr (.runEnds _ _ _ _ _ _ _ (.returned e) hc hj hg))) (by simp)
    simp only [Nest.weight, List.length_set]
    omega
  | run i f k ctx hc hr hn hk =>
    have h1 := codes_upd (c := n.code) k _ (finishing_lt hr)
    have h2 := start_weight { n with code := upd n.code i k, kids := upd n.kids i (n.w.jobs.length :: n.kids i) } f ctx
    rw [hk] at h1
    simp only [Code.weight] at h1
    simp only [Nest.weight] at h2 ⊢
    omega
  | wait i k hc hr hn hk hd =>
    have h1 := codes_upd (c := n.code) k _ (finishing_lt hr)
    rw [hk] at h1
    simp only [Code.weight] at h1
    simp only [Nest.weight]
    omega
  | returns i ctx0 b d m hc hj hn hk =>
    have := weight_lt (.deferReturn _ _ _ _ _ _ hc hj) (by simp)
    simp only [Nest.weight, List.length_set]
    omega

/-- **C144.** Without new calls from outside every execution ends, whatever the schedule. -/
theorem C144_ends (n : Nest E V) : Acc (fun n' n => InnerD n n' ∨ Cancels n n') n := by
  have : ∀ k, ∀ n : Nest E V, n.weight < k → Acc (fun n' n => InnerD n n' ∨ Cancels n n') n := by
    intro k
    induction k with
    | zero => intro m h; omega
    | succ k ih =>
      refine fun m h => ⟨_, fun m' hs => ih m' ?_⟩
      rcases hs with hs | hs
      · have := innerD_weight hs; omega
      · have := cancels_weight hs; omega
  exact this _ n (Nat.lt_succ_self _)

/-! ### States in which nothing happens any more -/

theorem stuck_finishing {n : Nest E V} (hc : n.w.crashed = false) (hs : ∀ n', ¬ InnerD n n') {i : Nat} (hr : n.finishing i = true) : n.HoldsD i := by
  refine ⟨hr, ?_⟩
  cases hn : n.inRun i with
  | true => exact .inl rfl
  | false =>
    right
    cases hk : n.code i with
    | ret =>
      obtain ⟨ctx0, b, d, m, hj⟩ := finishing_iff.mp hr
      exact absurd (.returns n i ctx0 b d m hc hj hn hk) (hs _)
    | run f k => exact absurd (.run n i f k none hc hr hn hk) (hs _)
    | wait k =>
      refine ⟨⟨k, rfl⟩, Classical.byContradiction fun hno => hs _ (.wait n i k hc hr hn hk fun j hj => ?_)⟩
      cases hd : n.deferred j with
      | true => rfl
      | false => exact absurd ⟨j, hj, hd⟩ hno

theorem busy_holdsD [Nonempty E] {size : Int} {n : Nest E V} (h : DReach size n) (hs : ∀ n', ¬ InnerD n n') {i : Nat} {j : Job E V}
    (hj : n.w.jobs[i]? = some j) (hb : j.busy = true) : n.HoldsD i := by
  have hc := C144_no_crash h
  cases j with
  | pending => simp [Job.busy] at hb
  | accepted ctx0 b d ph m =>
    obtain ⟨c1, c2, c3⟩ := (d_inv h).clean _ (List.mem_of_getElem? hj)
    simp only [Job.busy] at hb
    split at hb
    · exact stuck_finishing hc hs (finishing_iff.mpr ⟨_, _, _, _, hj⟩)
    · rename_i h1 h2 h3
      exact absurd (.runEnds n i ctx0 b d _ m (Classical.choice ‹_›) hc hj h3) (hs _)
    · rename_i h1 h2 h3
      obtain ⟨e, he⟩ := c3 _ (.inr h3)
      simp at he
    · simp at hb

/-- **C144.** How an execution ends: every call is over, or a call of `Run` waits for a slot and all slots are held by `deferFunc`s that wait for the
worker – for a slot or for the `deferFunc` of a call they have made. -/
theorem C144_exact [Nonempty E] {size : Int} {n : Nest E V} (h : DReach size n) (hs : ∀ n', ¬ InnerD n n') :
    (∀ i, i < n.w.jobs.length → n.Over i) ∨
    (∃ i, n.pending i = true) ∧ ∃ l : List Nat, l.Nodup ∧ (l.length : Int) = size ∧ ∀ i ∈ l, n.HoldsD i := by
  have hc := C144_no_crash h
  have hw := C144_worker h
  have hown : ∀ w', ¬ Own n.w w' := fun w' ho => hs _ (.own n w' ho)
  by_cases hp : ∃ i, n.pending i = true
  · right
    refine ⟨hp, (List.range n.w.jobs.length).filter fun i => (n.w.jobs[i]?).any Job.busy, (List.nodup_range).filter _, ?_, ?_⟩
    · obtain ⟨i, hi⟩ := hp
      rw [range_filter]
      obtain ⟨ctx, b, hj⟩ := pending_iff.mp hi
      exact C116_waits hw hc hown hj
    · intro i hi
      have hb := (List.mem_filter.mp hi).2
      cases hj : n.w.jobs[i]? with
      | none => simp [hj] at hb
      | some j => exact busy_holdsD h hs hj (by simpa [hj] using hb)
  · left
    have key : ∀ k i, n.w.jobs.length - i ≤ k → i < n.w.jobs.length → n.Over i := by
      intro k
      induction k with
      | zero => intro i h1 h2; omega
      | succ k ih =>
        intro i hk hi
        have hkids : ∀ j ∈ n.kids i, n.deferred j = true := fun j hj => by
          have hlt := (d_inv h).kids i j hj
          obtain ⟨ctx0, b, d, e, hj', -⟩ := ih j (by omega) hlt.2
          simp [Nest.deferred, hj']
        have hin : n.inRun i = false := by
          unfold Nest.inRun
          split
          · rename_i j l e
            exact Bool.eq_false_iff.mpr fun hp' => hp ⟨j, hp'⟩
          · rfl
        have hrun : n.runs i = false := Bool.eq_false_iff.mpr fun hr => by
          obtain ⟨_, _, _, _, _, hj, hg⟩ := runs_iff.mp hr
          exact hs _ (.runEnds n i _ _ _ _ _ (Classical.choice ‹_›) hc hj hg)
        cases hj : n.w.jobs[i]? with
        | none => rw [List.getElem?_eq_none_iff] at hj; omega
        | some j =>
          cases j with
          | pending ctx b => exact absurd ⟨i, by simp [Nest.pending, hj]⟩ hp
          | accepted ctx0 b d ph m =>
            rcases C116_accepted hw hc hown hj with hb | ⟨rfl, rfl, e, h1, h2⟩
            · obtain ⟨_, h1 | ⟨-, j, h2, h3⟩⟩ := busy_holdsD h hs hj hb
              · rw [hin] at h1; simp at h1
              · rw [hkids j h2] at h3; simp at h3
            · exact ⟨_, _, _, _, hj, h1, h2, hrun⟩
    exact fun i hi => key _ i (Nat.le_refl _) hi

/-- **C144.** If fewer `deferFunc`s that call `Run` are executing than the worker has slots, every call is over in the end. -/
theorem C144_over_partial [Nonempty E] {size : Int} {n : Nest E V} (h : DReach size n) (hs : ∀ n', ¬ InnerD n n')
    (hlt : (((List.range n.w.jobs.length).filter fun i => n.finishing i && (n.fn i).calls).length : Int) < size) {i : Nat} (hi : i < n.w.jobs.length) :
    n.Over i := by
  rcases C144_exact h hs with hh | ⟨-, l, h1, h2, h3⟩
  · exact hh i hi
  · exfalso
    have : l.length ≤ ((List.range n.w.jobs.length).filter fun i => n.finishing i && (n.fn i).calls).length := by
      refine (List.subperm_of_subset h1 fun x hx => ?_).length_le
      obtain ⟨a, b⟩ := h3 x hx
      have hm : (n.fn x).calls = true := (d_inv h).made x fun hk => by
        rcases b with b | ⟨-, j, hj, -⟩
        · simp [Nest.inRun, hk] at b
        · simp [hk] at hj
      exact List.mem_filter.mpr ⟨List.mem_range.mpr (finishing_lt a), by simp [a, hm]⟩
    omega

/-! ### How far a call is -/

/-- Proof only: where a call is, as far as the other calls can see it. -/
def Job.stage : Job E V → Option Phase
  | .pending _ _ => none
  | .accepted _ _ _ ph _ => some ph

/-- Proof only: as `Job.stage`, of a call by its number. -/
def Nest.stage (n : Nest E V) (i : Nat) : Option (Option Phase) := (n.w.jobs[i]?).map Job.stage

theorem finishing_stage {n : Nest E V} {i : Nat} : n.finishing i = decide (n.stage i = some (some .executing)) := by
  unfold Nest.finishing Nest.stage
  rcases n.w.jobs[i]? with _ | (_ | ⟨_, _, _, ph, _⟩) <;> simp [Job.stage]
  cases ph <;> simp

theorem pending_stage {n : Nest E V} {i : Nat} : n.pending i = decide (n.stage i = some none) := by
  unfold Nest.pending Nest.stage
  rcases n.w.jobs[i]? with _ | (_ | ⟨_, _, _, ph, _⟩) <;> simp [Job.stage]

theorem deferred_stage {n : Nest E V} {i : Nat} : n.deferred i = decide (n.stage i = some (some .after)) := by
  unfold Nest.deferred Nest.stage
  rcases n.w.jobs[i]? with _ | (_ | ⟨_, _, _, ph, _⟩) <;> simp [Job.stage]
  cases ph <;> simp

/-! ### `deferFunc`s that wait for their calls at the end -/

/-- Proof only: a `deferFunc` that has returned is at the end of its code; one that waits for its calls at the end has yet to wait or has its calls behind it. -/
structure DInv (n : Nest E V) : Prop where
  over : ∀ i, n.deferred i = true → n.code i = .ret
  joins : ∀ i, (n.fn i).joins = true → (n.code i).joins = true ∨ n.code i = .ret ∧ ∀ j ∈ n.kids i, n.deferred j = true

theorem deferred_keep {n n' : Nest E V} (hw : WStep n.w n'.w) {j : Nat} (h : n.deferred j = true) : n'.deferred j = true :=
  deferred_iff.mpr (after_stable hw (deferred_iff.mp h))

/-- The functions in the worker stand still. -/
theorem DInv.keep {n : Nest E V} (h : DInv n) {w' : Worker E V} (hw : WStep n.w w')
    (ho : ∀ i, ({ n with w := w' } : Nest E V).deferred i = true → n.deferred i = true ∨ n.code i = .ret) : DInv { n with w := w' } :=
  ⟨fun i hi => (ho i hi).elim (h.over i) id, fun i hi => (h.joins i hi).imp id fun ⟨h1, h2⟩ => ⟨h1, fun j hj => deferred_keep (n' := { n with w := w' }) hw (h2 j hj)⟩⟩

theorem deferred_set {n : Nest E V} {k : Nat} {a : Job E V} {c : Chan Unit} {x : Bool} (ha : a.stage = some .after → n.deferred k = true ∨ n.code k = .ret)
    (i : Nat) (h : ({ n with w := ⟨c, n.w.jobs.set k a, x⟩ } : Nest E V).deferred i = true) : n.deferred i = true ∨ n.code i = .ret := by
  rw [deferred_stage, decide_eq_true_iff] at h
  unfold Nest.stage at h
  by_cases e : k = i
  · subst e
    simp only [List.getElem?_set] at h
    split at h
    · split at h
      · exact ha (by simpa using h)
      · simp at h
    · simp at *
  · simp only [List.getElem?_set_ne e] at h
    left
    rw [deferred_stage, decide_eq_true_iff]
    exact h

theorem DInv.start {n : Nest E V} (hc : n.w.crashed = false) (f : Code) (ctx : Option E) (h1 : ∀ i, n.deferred i = true → n.code i = .ret)
    (h2 : ∀ i, (n.fn i).joins = true → (n.code i).joins = true ∨ n.code i = .ret ∧ ∀ j ∈ n.kids i, n.deferred j = true) : DInv (n.start f ctx) := by
  have back : ∀ i, (n.start f ctx).deferred i = true → n.deferred i = true ∧ i ≠ n.w.jobs.length := by
    intro i hi
    obtain ⟨_, _, _, _, hj⟩ := deferred_iff.mp hi
    simp only [Nest.start, List.getElem?_append] at hj
    split at hj
    · exact ⟨deferred_iff.mpr ⟨_, _, _, _, hj⟩, by omega⟩
    · cases hx : i - n.w.jobs.length <;> simp [hx] at hj
  refine ⟨fun i hi => ?_, fun i hi => ?_⟩
  · obtain ⟨a, b⟩ := back i hi
    exact (upd_ne _ _ b).trans (h1 i a)
  · simp only [Nest.start, upd] at hi ⊢
    split at hi
    · rename_i e; simp only [e, if_true]; exact .inl hi
    · rename_i e; simp only [e, if_false]
      exact (h2 i hi).imp id fun ⟨a, b⟩ => ⟨a, fun j hj => deferred_keep (n := n) (n' := n.start f ctx) (.call _ ctx false hc) (b j hj)⟩

theorem d_joins {size : Int} {n : Nest E V} (h : DReach size n) : DInv n := by
  induction h with
  | init hw => exact ⟨fun _ _ => rfl, by simp [Code.joins]⟩
  | @step n _ h hs ih =>
    have stay : ∀ {i ctx0 b d ph m}, n.w.jobs[i]? = some (.accepted ctx0 b d ph m) → some ph = some .after → n.deferred i = true ∨ n.code i = .ret := by
      intro i ctx0 b d ph m hj hp
      simp only [Option.some.injEq] at hp
      subst hp
      exact .inl (deferred_iff.mpr ⟨_, _, _, _, hj⟩)
    cases hs with
    | call f ctx hc => exact DInv.start hc f ctx ih.over ih.joins
    | cancel hs =>
      have hw := cancels_w hs
      cases hs with
      | pending i b e hc hj => exact ih.keep hw (deferred_set (by simp [Job.stage]))
      | accepted i ctx0 b d ph m e hc hj hx => exact ih.keep hw (deferred_set (stay hj))
    | inner hs =>
      cases hs with
      | own w' ho =>
        refine ih.keep (step_iff.mpr (.inl ho)) ?_
        cases ho with
        | accept i ctx b c h1 h2 h3 => exact deferred_set (by simp [Job.stage])
        | doOwn i ctx0 b d d' ph m h1 h2 h3 h4 => exact deferred_set (stay h2)
        | deferCall i ctx0 d m o h1 h2 h3 => exact deferred_set (by simp [Job.stage])
        | deferNil i ctx0 d m o h1 h2 h3 => exact deferred_set (by simp [Job.stage])
        | release i ctx0 b d d' m c o h1 h2 h3 h4 h5 h6 => exact deferred_set (stay h2)
      | runEnds i ctx0 b d ph m e hc hj hg => exact ih.keep (step_iff.mpr (.inr (.runEnds _ _ _ _ _ _ _ _ hc hj hg))) (deferred_set (stay hj))
      | run i f k ctx hc hr hn hk =>
        obtain ⟨_, _, _, _, hj⟩ := finishing_iff.mp hr
        refine DInv.start (n := { n with code := upd n.code i k, kids := upd n.kids i (n.w.jobs.length :: n.kids i) }) hc f ctx (fun x hx => ?_) (fun x hx => ?_)
        · by_cases e : x = i
          · subst e
            obtain ⟨_, _, _, _, hj'⟩ := deferred_iff.mp hx
            simp only at hj'
            rw [hj] at hj'; simp at hj'
          · simp only [upd_ne _ _ e]; exact ih.over x hx
        · have := ih.joins x hx
          by_cases e : x = i
          · subst e
            simp only [upd, if_true]
            rw [hk] at this
            exact .inl (this.resolve_right (by simp))
          · simp only [upd_ne _ _ e]; exact this
      | wait i k hc hr hn hk hd =>
        obtain ⟨_, _, _, _, hj⟩ := finishing_iff.mp hr
        refine ⟨fun x hx => ?_, fun x hx => ?_⟩
        · by_cases e : x = i
          · subst e
            obtain ⟨_, _, _, _, hj'⟩ := deferred_iff.mp hx
            simp only at hj'
            rw [hj] at hj'; simp at hj'
          · simp only [upd_ne _ _ e]; exact ih.over x hx
        · have := ih.joins x hx
          by_cases e : x = i
          · subst e
            simp only [upd, if_true]
            rw [hk] at this
            have := this.resolve_right (by simp)
            cases k with
            | ret => exact .inr ⟨rfl, hd⟩
            | run f k => exact .inl this
            | wait k => exact .inl this
          · simp only [upd_ne _ _ e]; exact this
      | returns i ctx0 b d m hc hj hn hk => exact ih.keep (.deferReturn _ _ _ _ _ _ hc hj) (deferred_set fun _ => .inr hk)

/-- **C144.** A `deferFunc` that waits for its calls at its end has them all behind it when it has returned: each of them was taken on, and its
`deferFunc` was called once and has returned. -/
theorem C144_joined {size : Int} {n : Nest E V} (h : DReach size n) {i : Nat} (hf : (n.fn i).joins = true) {ctx0 : Option E} {b : Bool} {d : DoSt E V}
    {m : Nat} (hj : n.w.jobs[i]? = some (.accepted ctx0 b d .after m)) {j : Nat} (hk : j ∈ n.kids i) :
    ∃ ctx1 b1 d1, n.w.jobs[j]? = some (.accepted ctx1 b1 d1 .after 1) := by
  have hi := d_joins h
  have hret := hi.over i (deferred_iff.mpr ⟨_, _, _, _, hj⟩)
  rcases hi.joins i hf with h1 | ⟨-, h1⟩
  · rw [hret] at h1; simp [Code.joins] at h1
  · obtain ⟨ctx1, b1, d1, m1, h2⟩ := deferred_iff.mp (h1 j hk)
    obtain ⟨g1, g2, g3, g4⟩ := (w_inv (C144_worker h)).jobs _ (List.mem_of_getElem? h2)
    obtain ⟨rfl, _⟩ := g3 (by simp)
    exact ⟨_, _, _, h2⟩

/-! ### Once the slots are held they are held for ever -/

theorem stage_set {n : Nest E V} {i : Nat} {a a' : Job E V} {c : Chan Unit} {x : Bool} (h : n.w.jobs[i]? = some a) (ha : a'.stage = a.stage) (k : Nat) :
    ({ n with w := ⟨c, n.w.jobs.set i a', x⟩ } : Nest E V).stage k = n.stage k := by
  unfold Nest.stage
  by_cases e : i = k
  · subst e
    simp [List.getElem?_set_self (List.getElem?_eq_some_iff.mp h).1, h, ha]
  · simp [List.getElem?_set_ne e]

/-- A `deferFunc` that waits goes on waiting if what it sees of the others is the same. -/
theorem HoldsD.same {n n' : Nest E V} {i : Nat} (h : n.HoldsD i) (hk : ∀ j ∈ n.kids i, j < n.w.jobs.length)
    (hst : ∀ j, j < n.w.jobs.length → n'.stage j = n.stage j) (hc : n'.code i = n.code i) (hd : n'.kids i = n.kids i) : n'.HoldsD i := by
  obtain ⟨h1, h2⟩ := h
  refine ⟨by rw [finishing_stage, hst i (finishing_lt h1), ← finishing_stage, h1], ?_⟩
  rcases h2 with h2 | ⟨⟨k, h2⟩, j, h3, h4⟩
  · left
    unfold Nest.inRun at h2 ⊢
    rw [hd]
    split at h2
    · rename_i j l e
      show n'.pending j = true
      rw [pending_stage, hst j (hk j (by simp [e])), ← pending_stage, h2]
    · simp at h2
  · exact .inr ⟨⟨k, by rw [hc, h2]⟩, j, by rw [hd]; exact h3, by rw [deferred_stage, hst j (hk j h3), ← deferred_stage, h4]⟩

theorem jam_step {size : Int} {n n' : Nest E V} (h : DReach size n) {l : List Nat} (h1 : l.Nodup) (h2 : (l.length : Int) = size)
    (h3 : ∀ i ∈ l, n.HoldsD i) (hs : AnyD n n') :
    (∀ i ∈ l, n'.HoldsD i) ∧ n.w.jobs.length ≤ n'.w.jobs.length ∧ ∀ j, j < n.w.jobs.length → n'.stage j = n.stage j := by
  have hw := w_inv (C144_worker h)
  have hsub : l ⊆ (List.range n.w.jobs.length).filter fun i => (n.w.jobs[i]?).any Job.occupies := by
    intro i hi
    obtain ⟨ctx0, b, d, m, hj⟩ := finishing_iff.mp (h3 i hi).1
    refine List.mem_filter.mpr ⟨List.mem_range.mpr (finishing_lt (h3 i hi).1), ?_⟩
    obtain ⟨g1, g2, g3, g4⟩ := hw.jobs _ (List.mem_of_getElem? hj)
    rw [hj]
    simp only [Option.any_some, Job.occupies]
    split
    · rename_i o ho; exact absurd (g4 o ho) (by simp)
    · rfl
  have hsp := List.subperm_of_subset h1 hsub
  have hcount := C14_slots (C144_worker h)
  have hlen := range_filter Job.occupies n.w.jobs
  have hle := hsp.length_le
  have hocc : ∀ i j, n.w.jobs[i]? = some j → j.occupies = true → n.finishing i = true ∧ i ∈ l := by
    intro i j hj ho
    have hp := hsp.perm_of_length_le (by omega)
    have hi : i ∈ l := hp.mem_iff.mpr (List.mem_filter.mpr ⟨List.mem_range.mpr (List.getElem?_eq_some_iff.mp hj).1, by simp [hj, ho]⟩)
    exact ⟨(h3 i hi).1, hi⟩
  have hfin : ∀ i, n.finishing i = true → i ∈ l := by
    intro i hi
    obtain ⟨ctx0, b, d, m, hj⟩ := finishing_iff.mp hi
    obtain ⟨g1, g2, g3, g4⟩ := hw.jobs _ (List.mem_of_getElem? hj)
    refine (hocc i _ hj ?_).2
    simp only [Job.occupies]
    split
    · rename_i o ho; exact absurd (g4 o ho) (by simp)
    · rfl
  have hleave : ∀ (i : Nat) (ctx0 : Option E) (b : Bool) (d : DoSt E V) (ph : Phase) (m : Nat) (o : _), n.w.jobs[i]? = some (Job.accepted ctx0 b d ph m) →
      d.caller = Caller.leave o → ph = Phase.executing := by
    intro i ctx0 b d ph m o hj hl
    obtain ⟨_, _, _, _, hj'⟩ := finishing_iff.mp (hocc i _ hj (by simp [Job.occupies, hl])).1
    rw [hj] at hj'
    simp only [Option.some.injEq, Job.accepted.injEq] at hj'
    exact hj'.2.2.2.1
  have hkids : ∀ i, ∀ j ∈ n.kids i, j < n.w.jobs.length := fun i j hj => ((d_inv h).kids i j hj).2
  have same : ∀ {n' : Nest E V}, (∀ j, j < n.w.jobs.length → n'.stage j = n.stage j) → (∀ i ∈ l, n'.code i = n.code i) → (∀ i ∈ l, n'.kids i = n.kids i) →
      n.w.jobs.length ≤ n'.w.jobs.length →
      (∀ i ∈ l, n'.HoldsD i) ∧ n.w.jobs.length ≤ n'.w.jobs.length ∧ ∀ j, j < n.w.jobs.length → n'.stage j = n.stage j :=
    fun a b c d => ⟨fun i hi => HoldsD.same (h3 i hi) (hkids i) a (b i hi) (c i hi), d, a⟩
  cases hs with
  | call f ctx hc =>
    refine same (fun j hj => ?_) (fun i hi => ?_) (fun i hi => ?_) (by simp [Nest.start])
    · simp [Nest.stage, Nest.start, List.getElem?_append_left hj]
    · have := finishing_lt (h3 i hi).1
      exact upd_ne _ _ (by omega)
    · have := finishing_lt (h3 i hi).1
      exact upd_ne _ _ (by omega)
  | cancel hs =>
    cases hs with
    | pending i b e hc hj => exact same (fun j _ => stage_set hj (by rfl) j) (fun _ _ => rfl) (fun _ _ => rfl) (by simp)
    | accepted i ctx0 b d ph m e hc hj hx => exact same (fun j _ => stage_set hj (by rfl) j) (fun _ _ => rfl) (fun _ _ => rfl) (by simp)
  | inner hs =>
    cases hs with
    | own w' ho =>
      cases ho with
      | accept i ctx b c g1 g2 g3 =>
        exfalso
        have := hw.cap
        have := hw.nonneg
        unfold Chan.send at g3
        split at g3
        · simp at g3
        · split at g3
          · omega
          · simp at g3
      | doOwn i ctx0 b d d' ph m g1 g2 g3 g4 => exact same (fun j _ => stage_set g2 (by rfl) j) (fun _ _ => rfl) (fun _ _ => rfl) (by simp)
      | deferCall i ctx0 d m o g1 g2 g3 => exact absurd (hleave _ _ _ _ _ _ _ g2 g3) (by simp)
      | deferNil i ctx0 d m o g1 g2 g3 => exact absurd (hleave _ _ _ _ _ _ _ g2 g3) (by simp)
      | release i ctx0 b d d' m c o g1 g2 g3 => exact absurd (hleave _ _ _ _ _ _ _ g2 g3) (by simp)
    | runEnds i ctx0 b d ph m e hc hj hg => exact same (fun j _ => stage_set hj (by rfl) j) (fun _ _ => rfl) (fun _ _ => rfl) (by simp)
    | run i f k ctx hc hr hn hk =>
      obtain ⟨_, a | ⟨⟨k', a⟩, _⟩⟩ := h3 i (hfin i hr)
      · rw [hn] at a; simp at a
      · rw [hk] at a; simp at a
    | wait i k hc hr hn hk hd =>
      obtain ⟨_, a | ⟨_, j, a1, a2⟩⟩ := h3 i (hfin i hr)
      · rw [hn] at a; simp at a
      · rw [hd j a1] at a2; simp at a2
    | returns i ctx0 b d m hc hj hn hk =>
      obtain ⟨_, a | ⟨⟨k', a⟩, _⟩⟩ := h3 i (hfin i (finishing_iff.mpr ⟨_, _, _, _, hj⟩))
      · rw [hn] at a; simp at a
      · rw [hk] at a; simp at a

/-- **C144.** If all slots are held by `deferFunc`s that wait for the worker, this is so for ever, whatever is called from outside and whichever contexts
become done: the `deferFunc`s do not return, and no call of `Run` that waits for a slot, now or later, ever gets one. -/
theorem C144_forever {size : Int} {n n' : Nest E V} (h : DReach size n) {l : List Nat} (h1 : l.Nodup) (h2 : (l.length : Int) = size)
    (h3 : ∀ i ∈ l, n.HoldsD i) (hs : OnwardD n n') :
    (∀ i ∈ l, n'.HoldsD i) ∧ (∀ i, n.pending i = true → n'.pending i = true) ∧ ∀ i, n.w.jobs.length ≤ i → i < n'.w.jobs.length → n'.pending i = true := by
  suffices DReach size n' ∧ (∀ i ∈ l, n'.HoldsD i) ∧ n.w.jobs.length ≤ n'.w.jobs.length ∧ (∀ i, n.pending i = true → n'.pending i = true) ∧
      ∀ i, n.w.jobs.length ≤ i → i < n'.w.jobs.length → n'.pending i = true from ⟨this.2.1, this.2.2.2.1, this.2.2.2.2⟩
  induction hs with
  | refl => exact ⟨h, h3, Nat.le_refl _, fun _ h => h, fun i a b => absurd b (by omega)⟩
  | @step n' n'' hs ha ih =>
    obtain ⟨i1, i2, i3, i4, i5⟩ := ih
    obtain ⟨a1, a2, a3⟩ := jam_step i1 h1 h2 i2 ha
    have keep : ∀ i, n'.pending i = true → n''.pending i = true := by
      intro i hi
      obtain ⟨_, _, hj⟩ := pending_iff.mp hi
      rw [pending_stage, a3 i (List.getElem?_eq_some_iff.mp hj).1, ← pending_stage, hi]
    refine ⟨i1.step ha, a1, by omega, fun i hi => keep i (i4 i hi), fun i c1 c2 => ?_⟩
    by_cases c3 : i < n'.w.jobs.length
    · exact keep i (i5 i c1 c3)
    · have start : ∀ (m : Nest E V) f ctx, m.w.jobs.length ≤ i → i < (m.start f ctx).w.jobs.length → (m.start f ctx).pending i = true := by
        intro m f ctx d1 d2
        simp only [Nest.start, List.length_append, List.length_singleton] at d2
        have e : i = m.w.jobs.length := by omega
        subst e
        simp [Nest.pending, Nest.start]
      cases ha with
      | call f ctx hc => exact start n' f ctx (by omega) c2
      | cancel hx => exact absurd c2 (by cases hx <;> simpa using c3)
      | inner hx =>
        cases hx with
        | own w' ho => exact absurd c2 (by simpa [length_own ho] using c3)
        | run j f k ctx hc hr hn hk => exact start { n' with code := upd n'.code j k, kids := upd n'.kids j (n'.w.jobs.length :: n'.kids j) } f ctx (by simpa using c3) c2
        | _ => exact absurd c2 (by simpa using c3)

/-! ### Executions that jam -/

/-- A job whose context was done before it got a slot and whose `deferFunc` is executing. -/
def finJob : Job Nat Nat := .accepted (some 7) false ⟨some 7, Chan.make 1, Chan.make 1, .leave (.err 7), .none, 0, false⟩ .executing 1

/-- A worker of size `s` with `k` `deferFunc`s executing and `m` calls of `Run` waiting. -/
def filled (s k m : Nat) : Worker Nat Nat :=
  ⟨⟨List.replicate k (), s, false⟩, List.replicate k finJob ++ List.replicate m (.pending none false), false⟩

theorem filled_length (s k m : Nat) : (filled s k m).jobs.length = k + m := by simp [filled]

theorem filled_at {s k m i : Nat} (h : i < k) : (filled s k m).jobs[i]? = some finJob := by simp [filled, List.getElem?_append, h]

theorem filled_pending {s k m i : Nat} (h1 : k ≤ i) (h2 : i < k + m) : (filled s k m).jobs[i]? = some (.pending none false) := by
  have : i - k < m := by omega
  simp [filled, List.getElem?_append, Nat.not_lt.mpr h1, this]

/-- `k` `deferFunc`s that call `Run` once are executing, `m` of them have made the call. -/
def crowdD (s k m : Nat) : Nest Nat Nat where
  w := filled s k m
  fn := fun i => if i < k then .run .ret .ret else .ret
  code := fun i => if m ≤ i ∧ i < k then .run .ret .ret else .ret
  kids := fun i => if i < m then [k + i] else []

theorem crowdD_calls (s : Nat) : ∀ k, k ≤ s → DReach s (crowdD s k 0)
  | 0, _ => by
    refine cast (congrArg _ ?_) (DReach.init (size := s) (w := ⟨Chan.make s, [], false⟩) (by simp [newWorker]))
    simp [crowdD, filled, Chan.make]
  | k + 1, h => by
    have hset : ∀ a : Job Nat Nat, ∀ b : Job Nat Nat, ((List.replicate k a ++ [b]).set k) = fun c => List.replicate k a ++ [c] := by
      intro a b; funext c; rw [List.set_append_right _ _ (by simp)]; simp
    have h0 := (crowdD_calls s k (by omega)).step (.call _ (.run .ret .ret) (some 7) rfl)
    have h0' : (crowdD s k 0).start (.run .ret .ret) (some 7) = ⟨⟨⟨List.replicate k (), s, false⟩, List.replicate k finJob ++ [.pending (some 7) false], false⟩,
        (crowdD s (k + 1) 0).fn, (crowdD s (k + 1) 0).code, (crowdD s (k + 1) 0).kids⟩ := by
      simp only [crowdD, Nest.start, filled_length, Nest.mk.injEq]
      refine ⟨by simp [filled], ?_, ?_, ?_⟩ <;> funext i <;> simp only [upd]
      all_goals ((repeat' split) <;> first | rfl | (exfalso; omega))
    rw [h0'] at h0
    have h1 := h0.step (.inner (.own _ _ (.accept _ k (some 7) false ⟨List.replicate k () ++ [()], s, false⟩ rfl (by simp)
      (by simp [Chan.send]; omega))))
    have h2 := h1.step (.inner (.own _ _ (.doOwn _ k (some 7) false _ _ .before 0 rfl (by simp; rfl) ⟨.entryDone _ 7 rfl rfl, rfl, id⟩ (by simp))))
    have h3 := h2.step (.inner (.own _ _ (.deferCall _ k (some 7) _ 0 _ rfl (by simp; rfl) rfl)))
    refine cast (congrArg _ ?_) h3
    simp only [crowdD, filled, List.replicate_zero, List.append_nil, List.replicate_succ', hset]
    rfl

theorem crowdD_nested (s : Nat) : ∀ m, m ≤ s → DReach s (crowdD s s m)
  | 0, _ => crowdD_calls s s (Nat.le_refl _)
  | m + 1, h => by
    have hm : m < s := by omega
    have hr : (crowdD s s m).finishing m = true := finishing_iff.mpr ⟨_, _, _, _, filled_at hm⟩
    have h1 := (crowdD_nested s m (by omega)).step (.inner (.run _ m .ret .ret none rfl hr (by simp [Nest.inRun, crowdD]) (by simp [crowdD, hm])))
    refine cast (congrArg _ ?_) h1
    simp only [crowdD, Nest.start, filled_length, Nest.mk.injEq]
    refine ⟨by simp [filled, List.replicate_succ'], ?_, ?_, ?_⟩ <;> funext i <;> simp only [upd]
    · split
      · simp_all
      · rfl
    · split
      · rw [if_neg (by omega)]
      · split
        · rw [if_neg (by omega)]
        · split <;> split <;> first | rfl | (exfalso; omega)
    · split
      · rw [if_neg (by omega)]
      · split
        · rename_i e; subst e; simp
        · split <;> split <;> first | rfl | (exfalso; omega)

theorem crowdD_holds {s i : Nat} (h : i < s) : (crowdD s s s).HoldsD i :=
  ⟨finishing_iff.mpr ⟨_, _, _, _, filled_at h⟩, .inl (by
    have : (crowdD s s s).pending (s + i) = true := pending_iff.mpr ⟨_, _, filled_pending (by omega) (by omega)⟩
    simp [Nest.inRun, crowdD, h] at this ⊢
    exact this)⟩

/-- **C144** is false of the code without a condition: for a worker of any size there is an execution in which as many `deferFunc`s as there are slots
call `Run` once and, whatever happens later, never return; no call of `Run`, of the ones made and of all later ones, is ever over. -/
theorem C144_crowd_refuted (s : Nat) (_ : 1 ≤ s) : ∃ n : Nest Nat Nat, DReach s n ∧ n.w.jobs.length = 2 * s ∧
    (∀ i, n.fn i = .ret ∨ n.fn i = .run .ret .ret) ∧ ∀ n', OnwardD n n' → ∀ i, ¬ n'.Over i := by
  have hr := crowdD_nested s s (Nat.le_refl _)
  refine ⟨crowdD s s s, hr, by simp only [crowdD, filled_length]; omega, fun i => by simp only [crowdD]; split <;> simp, fun n' hs i => ?_⟩
  obtain ⟨h1, h2, h3⟩ := C144_forever hr (l := List.range s) List.nodup_range (by simp) (fun i hi => crowdD_holds (List.mem_range.mp hi)) hs
  rintro ⟨ctx0, b, d, e, hj, -⟩
  have hlen : (crowdD s s s).w.jobs.length = s + s := by simp [crowdD, filled_length]
  by_cases c1 : i < s
  · obtain ⟨_, _, _, _, hj'⟩ := finishing_iff.mp (h1 i (List.mem_range.mpr c1)).1
    rw [hj] at hj'; simp at hj'
  · have hp : n'.pending i = true := by
      by_cases c2 : i < s + s
      · exact h2 i (pending_iff.mpr ⟨_, _, filled_pending (by omega) (by omega)⟩)
      · exact h3 i (by omega) (List.getElem?_eq_some_iff.mp hj).1
    obtain ⟨_, _, hj'⟩ := pending_iff.mp hp
    rw [hj] at hj'; simp at hj'

/-! ## Examples -/

/-- The end of an execution on a worker of size 2 in which a `deferFunc` has called `Run` and has waited for the `deferFunc` of the call. -/
def endD : Nest Nat Nat :=
  ⟨⟨⟨[], 2, false⟩, [overJob 4, overJob 3], false⟩, upd (upd (fun _ => .ret) 0 (.run .ret (.wait .ret))) 1 .ret, fun _ => .ret,
    upd (upd (fun _ => []) 0 [1]) 1 []⟩

theorem demoD : DReach 2 endD := by
  have h0 : DReach 2 (⟨⟨Chan.make 2, [], false⟩, fun _ => .ret, fun _ => .ret, fun _ => []⟩ : Nest Nat Nat) := .init rfl
  have h1 := h0.step (.call _ (.run .ret (.wait .ret)) none rfl)
  have h2 := h1.step (.inner (.own _ _ (.accept _ 0 none false _ rfl rfl rfl)))
  have h3 := h2.step (.inner (.own _ _ (.doOwn _ 0 none false _ _ .before 0 rfl rfl ⟨.entryGo _ rfl rfl, rfl, id⟩ (by simp))))
  have h4 := h3.step (.inner (.own _ _ (.doOwn _ 0 none false _ _ .before 0 rfl rfl ⟨.spawn _ rfl, rfl, fun _ => rfl⟩ (by simp))))
  have h5 := h4.step (.inner (.runEnds _ 0 none false _ .before 0 4 rfl rfl rfl))
  have h6 := h5.step (.inner (.own _ _ (.doOwn _ 0 none false _ _ .before 0 rfl rfl ⟨.deliverRet _ 4 _ rfl rfl, rfl, fun h => by simp at h⟩ (by simp))))
  have h7 := h6.step (.inner (.own _ _ (.doOwn _ 0 none false _ _ .before 0 rfl rfl ⟨.recvDone _ 4 _ rfl rfl, rfl, id⟩ (by simp))))
  have h8 := h7.step (.inner (.own _ _ (.deferCall _ 0 none _ 0 _ rfl rfl rfl)))
  have h9 := h8.step (.inner (.run _ 0 .ret (.wait .ret) none rfl rfl rfl rfl))
  have g2 := h9.step (.inner (.own _ _ (.accept _ 1 none false _ rfl rfl rfl)))
  have g3 := g2.step (.inner (.own _ _ (.doOwn _ 1 none false _ _ .before 0 rfl rfl ⟨.entryGo _ rfl rfl, rfl, id⟩ (by simp))))
  have g4 := g3.step (.inner (.own _ _ (.doOwn _ 1 none false _ _ .before 0 rfl rfl ⟨.spawn _ rfl, rfl, fun _ => rfl⟩ (by simp))))
  have g5 := g4.step (.inner (.runEnds _ 1 none false _ .before 0 3 rfl rfl rfl))
  have g6 := g5.step (.inner (.own _ _ (.doOwn _ 1 none false _ _ .before 0 rfl rfl ⟨.deliverRet _ 3 _ rfl rfl, rfl, fun h => by simp at h⟩ (by simp))))
  have g7 := g6.step (.inner (.own _ _ (.doOwn _ 1 none false _ _ .before 0 rfl rfl ⟨.recvDone _ 3 _ rfl rfl, rfl, id⟩ (by simp))))
  have g8 := g7.step (.inner (.own _ _ (.deferCall _ 1 none _ 0 _ rfl rfl rfl)))
  have g9 := g8.step (.inner (.returns _ 1 none false _ 1 rfl rfl rfl rfl))
  have g10 := g9.step (.inner (.own _ _ (.release _ 1 none false _ _ 1 _ _ rfl rfl rfl rfl (.leave _ _ rfl) rfl)))
  have g11 := g10.step (.inner (.wait _ 0 .ret rfl rfl rfl rfl (fun j hj => by
    have e : j = 1 := List.mem_singleton.mp (show j ∈ [1] from hj)
    subst e; rfl)))
  have g12 := g11.step (.inner (.returns _ 0 none false _ 1 rfl rfl rfl rfl))
  have g13 := g12.step (.inner (.own _ _ (.release _ 0 none false _ _ 1 _ _ rfl rfl rfl rfl (.leave _ _ rfl) rfl)))
  refine cast (congrArg _ ?_) g13
  simp only [endD, Nest.start, Nest.mk.injEq]
  refine ⟨rfl, rfl, ?_, ?_⟩
  · funext i; rcases i with _ | _ | i <;> rfl
  · funext i; rcases i with _ | _ | i <;> rfl

theorem endD_stuck (n' : Nest Nat Nat) : ¬ InnerD endD n' := by
  have hfin : ∀ i, endD.finishing i = false := by
    intro i; rcases i with _ | _ | i <;> rfl
  intro hs
  cases hs with
  | own w' ho => exact endNest_stuck _ (.own endNest w' ho)
  | runEnds i ctx0 b d ph m e hc hj hg =>
    rcases i with _ | _ | i
    · simp only [endD, overJob, List.getElem?_cons_zero, Option.some.injEq, Job.accepted.injEq] at hj
      obtain ⟨_, _, rfl, _⟩ := hj; simp at hg
    · simp only [endD, overJob, List.getElem?_cons_succ, List.getElem?_cons_zero, Option.some.injEq, Job.accepted.injEq] at hj
      obtain ⟨_, _, rfl, _⟩ := hj; simp at hg
    · simp [endD] at hj
  | run i f k ctx hc hr hn hk => rw [hfin] at hr; simp at hr
  | wait i k hc hr hn hk hd => rw [hfin] at hr; simp at hr
  | returns i ctx0 b d m hc hj hn hk => exact absurd (finishing_iff.mpr ⟨_, _, _, _, hj⟩) (by rw [hfin]; simp)

example : WReach 2 endD.w := C144_worker demoD
example : endD.w.crashed = false := C144_no_crash demoD
example : Acc (fun n' n => InnerD n n' ∨ Cancels n n') (crowdD 3 3 0) := C144_ends _
/-- The execution with `deferFunc`s that call `Run` can go on and does not end at once. -/
example : ∃ n', InnerD (crowdD 3 3 0) n' := ⟨_, .run _ 0 .ret .ret none rfl (finishing_iff.mpr ⟨_, _, _, _, filled_at (by omega)⟩) rfl rfl⟩
example : (∀ i, i < 2 → endD.Over i) ∨
    (∃ i, endD.pending i = true) ∧ ∃ l : List Nat, l.Nodup ∧ (l.length : Int) = 2 ∧ ∀ i ∈ l, endD.HoldsD i := C144_exact demoD endD_stuck
example : ∃ ctx1 b1 d1, endD.w.jobs[1]? = some (.accepted ctx1 b1 d1 .after 1) := C144_joined demoD (i := 0) rfl rfl (List.mem_singleton.mpr rfl)
example : endD.Over 0 := C144_over_partial demoD endD_stuck (by decide) (by decide)
example : endD.Over 1 := C144_over_partial demoD endD_stuck (by decide) (by decide)
/-- A call made from outside on a worker of size 2 whose slots are held by `deferFunc`s that wait for it. -/
example : ((crowdD 2 2 2).start .ret none).pending 4 = true :=
  (C144_forever (crowdD_nested 2 2 (Nat.le_refl _)) (l := List.range 2) List.nodup_range rfl (fun _ hi => crowdD_holds (List.mem_range.mp hi))
    (.step (.refl _) (.call _ .ret none rfl))).2.2 4 (by decide) (by decide)

end Verif.XWorker

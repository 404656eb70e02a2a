import Verif.XMapReduce.Inv
import Mathlib.Data.List.Perm.Subperm
import Mathlib.Data.List.Perm.Lattice
/-! # Property theorems for `xmapreduce.Map` (C15, C16, C17, C79, C80) -/
namespace Verif.XMapReduce
open Verif.Go Verif.XTask

variable {α β : Type}

/-! ## Concrete executions, used as witnesses beside the theorems -/

/-- A complete execution: one item, one value, the consumer sees the value and the end. -/
theorem demo : ∃ m : MR Nat Nat, Reach [1] (fun x => [10 * x]) 1 none m ∧ m.ctx = none ∧ m.drained = true ∧ m.out = [10] := by
  have h0 : Reach [1] (fun x : Nat => [10 * x]) 1 none (start [1] 1 none) := .init
  have h1 := h0.step (.handOver _ 1 [] rfl rfl rfl)
  have h2 := h1.step (.add _ 1 rfl rfl)
  have h3 := h2.step (.run _ 1 _ rfl rfl rfl)
  have h4 := h3.step (.doStep _ [] [] _ _ rfl rfl (.entryGo _ rfl rfl) rfl (by simp) (by simp))
  have h5 := h4.step (.doStep _ [] [] _ _ rfl rfl (.spawn _ rfl) rfl (by simp) (by simp))
  have h6 := h5.step (.writeGo _ [] [] _ 10 [] rfl rfl rfl rfl rfl rfl)
  have h7 := h6.step (.writeSent _ [] [] _ 10 [] _ rfl rfl rfl rfl rfl rfl)
  have h8 := h7.step (.mapReturn _ [] [] _ _ rfl rfl rfl rfl (.finish _ (.returned .nil) rfl) rfl)
  have h9 := h8.step (.doStep _ [] [] _ _ rfl rfl (.deliverRet _ .nil _ rfl rfl) rfl (by simp) (by simp))
  have h10 := h9.step (.doStep _ [] [] _ _ rfl rfl (.recvDone _ .nil _ rfl rfl) rfl (by simp) (by simp))
  have h11 := h10.step (.done _ [] [] _ (.err .nil) rfl rfl rfl rfl)
  have h12 := h11.step (.closeSource _ rfl rfl rfl)
  have h13 := h12.step (.selectClosed _ rfl rfl rfl)
  have h14 := h13.step (.waited _ rfl rfl rfl)
  have h15 := h14.step (.close _ rfl rfl)
  have h16 := h15.step (.consume _ 10 _ rfl rfl)
  have h17 := h16.step (.consumeEnd _ rfl rfl rfl)
  exact ⟨_, h17, rfl, rfl, rfl⟩

/-- An execution in the middle: one item, `mapFunc` is about to send. -/
theorem demoSending : ∃ m : MR Nat Nat, Reach [1] (fun x => [10 * x]) 1 none m ∧ m.ctx = none ∧ m.drained = false ∧ m.jobs.map (·.sending) = [true] := by
  have h0 : Reach [1] (fun x : Nat => [10 * x]) 1 none (start [1] 1 none) := .init
  have h1 := h0.step (.handOver _ 1 [] rfl rfl rfl)
  have h2 := h1.step (.add _ 1 rfl rfl)
  have h3 := h2.step (.run _ 1 _ rfl rfl rfl)
  have h4 := h3.step (.doStep _ [] [] _ _ rfl rfl (.entryGo _ rfl rfl) rfl (by simp) (by simp))
  have h5 := h4.step (.doStep _ [] [] _ _ rfl rfl (.spawn _ rfl) rfl (by simp) (by simp))
  have h6 := h5.step (.writeGo _ [] [] _ 10 [] rfl rfl rfl rfl rfl rfl)
  exact ⟨_, h6, rfl, rfl, rfl⟩

/-- An execution that is cancelled while `mapFunc` is about to send. -/
theorem demoCancelled : ∃ m : MR Nat Nat, Reach [1] (fun x => [10 * x]) 1 none m ∧ m.ctx ≠ none ∧ m.collector.closed = false ∧ m.jobs.map (·.sending) = [true] := by
  have h0 : Reach [1] (fun x : Nat => [10 * x]) 1 none (start [1] 1 none) := .init
  have h1 := h0.step (.handOver _ 1 [] rfl rfl rfl)
  have h2 := h1.step (.add _ 1 rfl rfl)
  have h3 := h2.step (.run _ 1 _ rfl rfl rfl)
  have h4 := h3.step (.doStep _ [] [] _ _ rfl rfl (.entryGo _ rfl rfl) rfl (by simp) (by simp))
  have h5 := h4.step (.doStep _ [] [] _ _ rfl rfl (.spawn _ rfl) rfl (by simp) (by simp))
  have h6 := h5.step (.writeGo _ [] [] _ 10 [] rfl rfl rfl rfl rfl rfl)
  have h7 := h6.step (.cancel _ rfl rfl)
  exact ⟨_, h7, by simp, rfl, rfl⟩

/-! ## C15 -/

/-- C15: if the context is not done when the consumer sees the end of the channel, then it has received exactly what
`mapFunc` writes for all the generated items, in some order. -/
theorem C15_multiset {items : List α} {f : α → List β} {size : Nat} {ctx : Option Err} {m : MR α β} (h : Reach items f size ctx m)
    (hctx : m.ctx = none) (hd : m.drained = true) : m.out.Perm (items.flatMap f) := by
  classical
  have hi := inv_reach h
  obtain ⟨hcl, hbuf⟩ := hi.drained hd
  have hpc : m.pc = .ended := by
    have := hi.closed; rw [hcl] at this
    cases hp : m.pc <;> rw [hp] at this <;> simp at this ⊢
  have hw := hi.final (by rw [hpc]; rfl)
  have h2 := hi.wg
  have hgen : m.gen = [] := by
    rcases hi.over (by rw [hpc]; rfl) with h' | h'
    · exact absurd hctx h'
    · exact hi.src h'
  have hwr : ∀ j ∈ m.jobs, j.writes = [] := by
    intro j hj
    have hnd := zero_of_countP (p := notDeferred) (l := m.jobs) (by rw [hpc] at h2; simp only [Pc.running] at h2; omega) j hj
    have hjd : j.deferred = true := by simpa [notDeferred] using hnd
    have hji := hi.jobs j hj
    obtain ⟨o, ho⟩ := hji.defd hjd
    obtain ⟨c0, hr⟩ := hji.reach
    rcases (do_inv hr).out o ho with ⟨e, _, h' | h'⟩ | ⟨p, _, h'⟩
    · rw [hji.ctxEq, hctx] at h'; simp at h'
    · exact hji.ret e (Or.inr h')
    · obtain ⟨_, e, he⟩ := hji.panicked (Or.inr h')
      rcases (do_inv hr).out (.err e) he with ⟨e', _, h'' | h''⟩ | ⟨p, h'', _⟩
      · rw [hji.ctxEq, hctx] at h''; simp at h''
      · rw [h'] at h''; simp at h''
      · simp at h''
  rw [List.perm_iff_count]
  intro b
  have := hi.countEq hctx (· == b)
  have hp : pend (· == b) m.jobs = 0 := by
    unfold pend
    have : (m.jobs.map fun j => j.writes.countP (· == b)) = m.jobs.map fun _ => 0 :=
      List.map_congr_left (fun j hj => by rw [hwr j hj]; rfl)
    rw [this]; simp
  rw [hbuf, hp, hgen, hpc] at this
  simp only [Pc.items, List.flatMap_nil, List.countP_nil, Nat.add_zero] at this
  exact this

example : ∃ m : MR Nat Nat, m.out = [10] ∧ m.out.Perm ([1].flatMap fun x => [10 * x]) :=
  have ⟨m, h, h1, h2, h3⟩ := demo; ⟨m, h3, C15_multiset h h1 h2⟩

/-- C15: whatever happens, nothing is duplicated or invented: what has been received is a sub-multiset. -/
theorem C15_no_duplicates {items : List α} {f : α → List β} {size : Nat} {ctx : Option Err} {m : MR α β} (h : Reach items f size ctx m) :
    m.out.Subperm (items.flatMap f) := by
  classical
  rw [List.subperm_ext_iff]
  intro b _
  have := (inv_reach h).countLe (· == b)
  show m.out.countP _ ≤ List.countP _ _
  omega

example : ∃ m : MR Nat Nat, m.out = [10] ∧ m.out.Subperm ([1].flatMap fun x => [10 * x]) :=
  have ⟨m, h, _, _, h3⟩ := demo; ⟨m, h3, C15_no_duplicates h⟩

theorem results_len {items : List α} {f : α → List β} {size : Nat} {ctx : Option Err} {m : MR α β} (h : Reach items f size ctx m) :
    ∀ j ∈ m.jobs, j.results.length + j.writes.length = (f j.item).length := by
  induction h with
  | init => simp [start]
  | @step m m' _ hs ih =>
    cases hs with
    | cancel _ _ =>
      intro j hj
      obtain ⟨j0, hj0, rfl⟩ := List.mem_map.1 hj
      exact ih j0 hj0
    | run x c _ _ _ =>
      intro j hj
      simp only [List.mem_append, List.mem_singleton] at hj
      rcases hj with hj | rfl
      · exact ih j hj
      · simp [Job.new]
    | doStep l₁ l₂ j d' _ hj => rw [hj] at ih; exact forall_repl ih (ih j (by simp))
    | writeGo l₁ l₂ j v vs _ hj _ _ => rw [hj] at ih; exact forall_repl ih (ih j (by simp))
    | writeDone l₁ l₂ j v vs _ hj _ hw =>
      rw [hj] at ih
      refine forall_repl ih ?_
      have := ih j (by simp)
      rw [hw] at this; simp at this ⊢; omega
    | writeSent l₁ l₂ j v vs _ _ hj _ hw =>
      rw [hj] at ih
      refine forall_repl ih ?_
      have := ih j (by simp)
      rw [hw] at this; simp at this ⊢; omega
    | writePanic l₁ l₂ j v vs d' _ hj => rw [hj] at ih; exact forall_repl ih (ih j (by simp))
    | mapReturn l₁ l₂ j d' _ hj => rw [hj] at ih; exact forall_repl ih (ih j (by simp))
    | done l₁ l₂ j o _ hj => rw [hj] at ih; exact forall_repl ih (ih j (by simp))
    | release l₁ l₂ j o d' c _ hj => rw [hj] at ih; exact forall_repl ih (ih j (by simp))
    | _ => exact ih

/-- C15: while the context is not done every `Write` of `mapFunc` reports `true`, and a `mapFunc` that has returned has
written all its values. -/
theorem C15_writes_succeed {items : List α} {f : α → List β} {size : Nat} {ctx : Option Err} {m : MR α β} (h : Reach items f size ctx m)
    (hctx : m.ctx = none) : ∀ j ∈ m.jobs, (∀ b ∈ j.results, b = true) ∧
      (j.d.gor = .ended (.returned .nil) → j.results.length = (f j.item).length) := by
  intro j hj
  have hji := (inv_reach h).jobs j hj
  refine ⟨hji.results hctx, fun hg => ?_⟩
  have := results_len h j hj
  rw [hji.ret .nil (Or.inr hg)] at this
  simpa using this

example : ∃ m : MR Nat Nat, m.out = [10] ∧ ∀ j ∈ m.jobs, (∀ b ∈ j.results, b = true) ∧ (j.d.gor = .ended (.returned .nil) → j.results.length = 1) :=
  have ⟨m, h, h1, _, h3⟩ := demo; ⟨m, h3, C15_writes_succeed h h1⟩

/-! ## C16 -/

/-- C16: the output is closed at most once, and no panic ever ends the program (in particular closing does not panic). -/
theorem C16_closed_once {items : List α} {f : α → List β} {size : Nat} {ctx : Option Err} {m : MR α β} (h : Reach items f size ctx m) :
    m.closes ≤ 1 ∧ (m.closes = 1 ↔ m.collector.closed = true) ∧ m.crashed = false := by
  have hi := inv_reach h
  have h1 := hi.closes
  have h2 := hi.closed
  refine ⟨?_, ?_, hi.crashed⟩
  · rw [h1]; split <;> omega
  · rw [h1, h2]; split <;> simp

example : ∃ m : MR Nat Nat, m.out = [10] ∧ m.closes ≤ 1 ∧ (m.closes = 1 ↔ m.collector.closed = true) ∧ m.crashed = false :=
  have ⟨m, h, _, _, h3⟩ := demo; ⟨m, h3, C16_closed_once h⟩

/-- C16 (partial): while the context is not done, the closed output means that all items have been handed to a mapping
and that all mappings have ended, so that nothing can be sent any more. Missing: executions with cancellation, see
`C16_cancel_refuted`. -/
theorem C16_all_finished_partial {items : List α} {f : α → List β} {size : Nat} {ctx : Option Err} {m : MR α β} (h : Reach items f size ctx m)
    (hctx : m.ctx = none) (hc : m.collector.closed = true) :
    (∀ x ∈ items, ∃ j ∈ m.jobs, j.item = x) ∧ ∀ j ∈ m.jobs, ∃ e, j.d.gor = .ended (.returned e) := by
  have hi := inv_reach h
  have hpc : m.pc = .ended := by
    have := hi.closed; rw [hc] at this
    cases hp : m.pc <;> rw [hp] at this <;> simp at this ⊢
  have hw := hi.final (by rw [hpc]; rfl)
  have h2 := hi.wg
  have hgen : m.gen = [] := by
    rcases hi.over (by rw [hpc]; rfl) with h' | h'
    · exact absurd hctx h'
    · exact hi.src h'
  refine ⟨fun x hx => ?_, fun j hj => ?_⟩
  · have := (hi.started x).1 hx
    rw [hgen, hpc] at this
    simp only [Pc.items, List.not_mem_nil, or_false, List.mem_map] at this
    exact this
  · have hnd := zero_of_countP (p := notDeferred) (l := m.jobs) (by rw [hpc] at h2; simp only [Pc.running] at h2; omega) j hj
    have hjd : j.deferred = true := by simpa [notDeferred] using hnd
    have hji := hi.jobs j hj
    obtain ⟨o, ho⟩ := hji.defd hjd
    obtain ⟨c0, hr⟩ := hji.reach
    rcases (do_inv hr).out o ho with ⟨e, _, h' | h'⟩ | ⟨p, _, h'⟩
    · rw [hji.ctxEq, hctx] at h'; simp at h'
    · exact ⟨e, h'⟩
    · obtain ⟨_, e, he⟩ := hji.panicked (Or.inr h')
      rcases (do_inv hr).out (.err e) he with ⟨e', _, h'' | h''⟩ | ⟨p, h'', _⟩
      · rw [hji.ctxEq, hctx] at h''; simp at h''
      · rw [h'] at h''; simp at h''
      · simp at h''

example : ∃ m : MR Nat Nat, m.out = [10] ∧ ∀ j ∈ m.jobs, ∃ e, j.d.gor = .ended (.returned e) :=
  have ⟨m, h, h1, h2, h3⟩ := demo; ⟨m, h3, (C16_all_finished_partial h h1 ((inv_reach h).drained h2).1).2⟩

/-- The job of the witnesses: `Do` started, `mapFunc` inside its first `Write`. -/
def writingJob (ctx : Option Err) (c : Caller Err Unit) (deferred : Bool) : Job Nat Nat :=
  ⟨1, ⟨ctx, Chan.make 1, Chan.make 1, c, .running, 0, true⟩, deferred, [10], true, []⟩

/-- C16 is false with cancellation: the output is closed while a mapping is still inside `Write`; its send then panics
(inside the goroutine of `Do`, where the panic is caught and lost). -/
theorem C16_cancel_refuted : ∃ m m' : MR Nat Nat, Reach [1] (fun x => [10 * x]) 1 none m ∧ m.collector.closed = true ∧
    (∃ j ∈ m.jobs, j.d.gor = .running) ∧ Step (fun x => [10 * x]) m m' ∧ ∃ j ∈ m'.jobs, j.d.gor = .finished (.panicked ()) := by
  have h0 : Reach [1] (fun x : Nat => [10 * x]) 1 none (start [1] 1 none) := .init
  have h1 := h0.step (.handOver _ 1 [] rfl rfl rfl)
  have h2 := h1.step (.add _ 1 rfl rfl)
  have h3 := h2.step (.run _ 1 _ rfl rfl rfl)
  have h4 := h3.step (.doStep _ [] [] _ _ rfl rfl (.entryGo _ rfl rfl) rfl (by simp) (by simp))
  have h5 := h4.step (.doStep _ [] [] _ _ rfl rfl (.spawn _ rfl) rfl (by simp) (by simp))
  have h6 := h5.step (.writeGo _ [] [] _ 10 [] rfl rfl rfl rfl rfl rfl)
  have h7 := h6.step (.cancel _ rfl rfl)
  have h8 := h7.step (.doStep _ [] [] _ _ rfl rfl (.recvCtx _ .ctx rfl rfl) rfl (by simp) (by simp))
  have h9 := h8.step (.done _ [] [] _ (.err .ctx) rfl rfl rfl rfl)
  have h10 := h9.step (.selectDone _ rfl rfl (by simp))
  have h11 := h10.step (.waited _ rfl rfl rfl)
  have h12 := h11.step (.close _ rfl rfl)
  refine ⟨_, _, h12, rfl, ⟨writingJob (some .ctx) (.leave (.err .ctx)) true, by exact List.Mem.head _, rfl⟩,
    .writePanic _ [] [] (writingJob (some .ctx) (.leave (.err .ctx)) true) 10 [] _ rfl rfl rfl rfl rfl rfl (.finish _ (.panicked ()) rfl) rfl, _, List.Mem.head _, rfl⟩

/-! ## C17: progress and termination -/

/-- Proof only: part of a measure; models no code. -/
def callerW : Caller Err Unit → Nat
  | .entry => 4
  | .spawn => 3
  | .wait => 2
  | .leave _ => 1
  | .left _ => 0

/-- Proof only: part of a measure; models no code. -/
def gorW : Gor Err Unit → Nat
  | .none => 3
  | .running => 2
  | .finished _ => 1
  | .ended _ => 0

/-- Proof only: part of a measure; models no code. -/
def jobW (j : Job α β) : Nat :=
  callerW j.d.caller + gorW j.d.gor + (if j.deferred then 0 else 1) + 3 * j.writes.length + (if j.sending then 0 else 1)

/-- Proof only: part of a measure; models no code. -/
def pcW (f : α → List β) : Pc α → Nat
  | .select => 3
  | .add x => 14 + 3 * (f x).length
  | .run x => 13 + 3 * (f x).length
  | .wait => 2
  | .close => 1
  | .ended => 0

/-- The number of steps that are still possible is at most this. -/
def weight (f : α → List β) (m : MR α β) : Nat :=
  (if m.ctx = none then 1 else 0) + (m.gen.map fun x => 12 + 3 * (f x).length).sum + (if m.srcClosed then 0 else 1) + pcW f m.pc +
  (m.jobs.map jobW).sum + m.collector.buf.length + (if m.drained then 0 else 1)

theorem doStep_weight {d d' : DoSt Err Unit} {c0 : Option Err} (h : DoReach true c0 d) (hs : DoStep true d d') (hctx : d'.ctx = d.ctx) :
    callerW d'.caller + gorW d'.gor < callerW d.caller + gorW d.gor := by
  have hi := do_inv h
  cases hs with
  | cancel e hc => simp [hc] at hctx
  | spawn hc => have := (hi.entry (by rw [hc]; trivial)).1; simp [hc, this, callerW, gorW]
  | _ => simp_all [callerW, gorW]

theorem step_weight_of {f : α → List β} {m m' : MR α β} (hi : ∀ j ∈ m.jobs, ∃ c0, DoReach true c0 j.d) (hs : Step f m m') :
    weight f m' < weight f m := by
  cases hs with
  | cancel hc hx =>
    have : (List.map jobW (m.jobs.map fun j => { j with d := { j.d with ctx := some Err.ctx } })) = m.jobs.map jobW := by
      rw [List.map_map]; rfl
    simp only [weight, hx, this]; simp
  | handOver x xs hc hg hp => simp only [weight, hg, hp, pcW, List.map_cons, List.sum_cons]; omega
  | closeSource hc hg hsr => simp [weight, hsr]
  | selectDone hc hp hx => simp only [weight, hp, pcW]; omega
  | selectClosed hc hp hx => simp only [weight, hp, pcW]; omega
  | add x hc hp => simp only [weight, hp, pcW]; omega
  | run x c hc hp hsd =>
    simp only [weight, hp, pcW, List.map_append, List.map_cons, List.map_nil, List.sum_append, List.sum_cons, List.sum_nil]
    have : jobW (Job.new m.ctx f x) = 9 + 3 * (f x).length := by simp [jobW, Job.new, doInit, callerW, gorW]; omega
    omega
  | doStep l₁ l₂ j d' hc hj hd hctx hl hf =>
    obtain ⟨c0, hr⟩ := hi j (by rw [hj]; simp)
    have := doStep_weight hr hd hctx
    simp only [weight, hj, List.map_append, List.map_cons, List.sum_append, List.sum_cons, jobW]; omega
  | writeGo l₁ l₂ j v vs hc hj hg hw hsn hx =>
    simp only [weight, hj, List.map_append, List.map_cons, List.sum_append, List.sum_cons, jobW, hsn]; simp
  | writeDone l₁ l₂ j v vs hc hj hg hw hsn hx =>
    simp only [weight, hj, List.map_append, List.map_cons, List.sum_append, List.sum_cons, jobW, hsn, hw, List.length_cons]; omega
  | writeSent l₁ l₂ j v vs c hc hj hg hw hsn hsd =>
    obtain ⟨_, _, rfl⟩ := send_sent hsd
    simp only [weight, hj, List.map_append, List.map_cons, List.sum_append, List.sum_cons, jobW, hsn, hw, List.length_cons, List.length_append,
      List.length_nil]
    simp; omega
  | writePanic l₁ l₂ j v vs d' hc hj hg hw hsn hsd hd hf =>
    obtain ⟨c0, hr⟩ := hi j (by rw [hj]; simp)
    have := doStep_weight hr hd (by cases hd <;> simp_all)
    simp only [weight, hj, List.map_append, List.map_cons, List.sum_append, List.sum_cons, jobW]; omega
  | mapReturn l₁ l₂ j d' hc hj hg hw hd hf =>
    obtain ⟨c0, hr⟩ := hi j (by rw [hj]; simp)
    have := doStep_weight hr hd (by cases hd <;> simp_all)
    simp only [weight, hj, List.map_append, List.map_cons, List.sum_append, List.sum_cons, jobW]; omega
  | done l₁ l₂ j o hc hj hl hdf =>
    simp only [weight, hj, List.map_append, List.map_cons, List.sum_append, List.sum_cons, jobW, hdf]; simp
  | release l₁ l₂ j o d' c hc hj hl hdf hr hd hl' =>
    obtain ⟨c0, hre⟩ := hi j (by rw [hj]; simp)
    have := doStep_weight hre hd (by cases hd <;> first | rfl | (simp only [hl] at hl'; simp at hl'))
    simp only [weight, hj, List.map_append, List.map_cons, List.sum_append, List.sum_cons, jobW]; omega
  | waited hc hp hw => simp only [weight, hp, pcW]; omega
  | close hc hp => simp only [weight, hp, pcW]; omega
  | consume v c hc hr =>
    obtain ⟨b1, b2⟩ := recv_got hr
    simp only [weight, b1, List.length_cons]; omega
  | consumeEnd hc hdr hr => simp [weight, hdr]

theorem step_weight {items : List α} {f : α → List β} {size : Nat} {m m' : MR α β} (hi : Inv items f size m) (hs : Step f m m') :
    weight f m' < weight f m := step_weight_of (fun j hj => (hi.jobs j hj).reach) hs

/-- Executions with their number of steps. -/
inductive RunN (f : α → List β) : Nat → MR α β → MR α β → Prop where
  | nil (m : MR α β) : RunN f 0 m m
  | snoc {n : Nat} {m m' m'' : MR α β} : RunN f n m m' → Step f m' m'' → RunN f (n + 1) m m''

/-- C17: every execution is finite: it has at most this many steps, counting also those of the consumer and of the context. -/
theorem C17_finite {items : List α} {f : α → List β} {size : Nat} {ctx : Option Err} {n : Nat} {m : MR α β}
    (h : RunN f n (start items size ctx) m) : n ≤ 6 + (items.map fun x => 12 + 3 * (f x).length).sum := by
  have key : Reach items f size ctx m ∧ n + weight f m ≤ weight f (start items size ctx : MR α β) := by
    generalize hs0 : (start items size ctx : MR α β) = s at h
    induction h with
    | nil => subst hs0; exact ⟨.init, by omega⟩
    | snoc _ hs ih =>
      obtain ⟨h1, h2⟩ := ih hs0
      have := step_weight (inv_reach h1) hs
      exact ⟨h1.step hs, by omega⟩
  have h2 := key.2
  have : weight f (start items size ctx : MR α β) ≤ 6 + (items.map fun x => 12 + 3 * (f x).length).sum := by
    simp only [weight, start, pcW, Chan.make, List.map_nil, List.sum_nil, List.length_nil]
    by_cases hc : ctx = none <;> simp [hc] <;> omega
  omega

example : ∃ m : MR Nat Nat, RunN (fun x => [10 * x]) 2 (start [1, 2] 1 none) m :=
  ⟨_, .snoc (.snoc (.nil _) (.handOver _ 1 [2] rfl rfl rfl)) (.add _ 1 rfl rfl)⟩

/-- No `mapFunc` has ended from one state to the next. -/
def StillRunning (l l' : List (Job α β)) : Prop :=
  ∀ (i : Nat) (j j' : Job α β), l[i]? = some j → l'[i]? = some j' → j.d.gor = .running → j'.d.gor = .running

theorem caller_cases {items : List α} {f : α → List β} {size : Nat} {m : MR α β} (hi : Inv items f size m) {j : Job α β} (hj : j ∈ m.jobs)
    (hl : ∀ o, j.d.caller ≠ .left o) (hnw : j.d.caller ≠ .wait) : ∃ m', Step f m m' ∧ m'.ctx = m.ctx ∧ m'.out = m.out ∧ m'.gen = m.gen ∧
      m'.jobs.map (·.writes) = m.jobs.map (·.writes) ∧
      StillRunning m.jobs m'.jobs := by
  have hji := hi.jobs j hj
  obtain ⟨c0, hr⟩ := hji.reach
  obtain ⟨l₁, l₂, hsp⟩ := List.append_of_mem hj
  have hgen : ∀ j' : Job α β, j'.writes = j.writes → (j.d.gor = .running → j'.d.gor = .running) →
      (l₁ ++ j' :: l₂).map (·.writes) = m.jobs.map (·.writes) ∧
      StillRunning m.jobs (l₁ ++ j' :: l₂) := by
    intro j' hw hg
    rw [hsp]
    refine ⟨by simp [hw], ?_⟩
    intro i a a' ha ha'
    rcases Nat.lt_trichotomy i l₁.length with hlt | heq | hgt
    · rw [List.getElem?_append_left hlt] at ha ha'; rw [ha] at ha'; simp at ha'; subst ha'; exact id
    · rw [List.getElem?_append_right (by omega)] at ha ha'
      simp [heq] at ha ha'; subst ha ha'; exact hg
    · rw [List.getElem?_append_right (by omega)] at ha ha'
      obtain ⟨k, hk⟩ : ∃ k, i - l₁.length = k + 1 := ⟨i - l₁.length - 1, by omega⟩
      rw [hk] at ha ha'
      simp at ha ha'; rw [ha] at ha'; simp at ha'; subst ha'; exact id
  cases hc : j.d.caller with
  | entry =>
    cases hx : j.d.ctx with
    | none => exact ⟨_, .doStep m l₁ l₂ j _ hi.crashed hsp (.entryGo _ hc hx) rfl (by simp) (by simp), rfl, rfl, rfl, hgen _ rfl id⟩
    | some e => exact ⟨_, .doStep m l₁ l₂ j _ hi.crashed hsp (.entryDone _ e hc hx) rfl (by simp) (by simp), rfl, rfl, rfl, hgen _ rfl id⟩
  | spawn => exact ⟨_, .doStep m l₁ l₂ j _ hi.crashed hsp (.spawn _ hc) rfl (by simp) (by simp), rfl, rfl, rfl, hgen _ rfl (fun _ => rfl)⟩
  | wait => exact absurd hc hnw
  | left o => exact absurd hc (hl o)
  | leave o =>
    cases hdf : j.deferred with
    | false => exact ⟨_, .done m l₁ l₂ j o hi.crashed hsp hc hdf, rfl, rfl, rfl, hgen _ rfl id⟩
    | true =>
      have hpos : 0 < m.jobs.countP occupies := by
        rw [List.countP_pos_iff]; exact ⟨j, hj, by simp [occupies, Caller.gone, hc]⟩
      rw [← hi.slots.1] at hpos
      cases hb : m.slots.buf with
      | nil => rw [hb] at hpos; simp at hpos
      | cons u t =>
        exact ⟨_, .release m l₁ l₂ j o _ _ hi.crashed hsp hc hdf (by simp [Chan.recv, hb]; rfl) (.leave _ o hc) rfl, rfl, rfl, rfl, hgen _ rfl id⟩

theorem job_progress {items : List α} {f : α → List β} {size : Nat} {m : MR α β} (hi : Inv items f size m) (hsz : 1 ≤ size) {j : Job α β}
    (hj : j ∈ m.jobs) (hl : ∀ o, j.d.caller ≠ .left o) : ∃ m', Step f m m' ∧ m'.ctx = m.ctx := by
  by_cases hnw : j.d.caller = .wait
  swap
  · obtain ⟨m', h1, h2, _⟩ := caller_cases hi hj hl hnw; exact ⟨m', h1, h2⟩
  have hji := hi.jobs j hj
  obtain ⟨c0, hr⟩ := hji.reach
  have hd := do_inv hr
  obtain ⟨l₁, l₂, hsp⟩ := List.append_of_mem hj
  cases hg : j.d.gor with
  | none => exact absurd hg (hd.wait hnw)
  | running =>
    cases hw : j.writes with
    | nil => exact ⟨_, .mapReturn m l₁ l₂ j _ hi.crashed hsp hg hw (.finish _ (.returned .nil) hg) rfl, rfl⟩
    | cons v vs =>
      cases hsn : j.sending with
      | false =>
        by_cases hx : m.ctx = none
        · exact ⟨_, .writeGo m l₁ l₂ j v vs hi.crashed hsp hg hw hsn hx, rfl⟩
        · exact ⟨_, .writeDone m l₁ l₂ j v vs hi.crashed hsp hg hw hsn hx, rfl⟩
      | true =>
        cases hsd : m.collector.send v with
        | sent c => exact ⟨_, .writeSent m l₁ l₂ j v vs c hi.crashed hsp hg hw hsn hsd, rfl⟩
        | panic => exact ⟨_, .writePanic m l₁ l₂ j v vs _ hi.crashed hsp hg hw hsn hsd (.finish _ (.panicked ()) hg) rfl, rfl⟩
        | blocked =>
          have hlen : m.collector.cap ≤ m.collector.buf.length := by
            unfold Chan.send at hsd
            split at hsd
            · simp at hsd
            · split at hsd
              · simp at hsd
              · omega
          cases hb : m.collector.buf with
          | nil => have := hi.coll.1; rw [hb] at hlen; simp at hlen; omega
          | cons u t => exact ⟨_, .consume m u _ hi.crashed (by simp [Chan.recv, hb]; rfl), rfl⟩
  | finished o =>
    cases o with
    | returned e =>
      refine ⟨_, .doStep m l₁ l₂ j _ hi.crashed hsp (.deliverRet _ e _ hg (by simp [Chan.send, hd.capD.1, hd.capD.2, (hd.pending _ (Or.inr hg)).1]; rfl)) rfl
        (fun o ho => by simpa using ho) (by simp), rfl⟩
    | panicked p =>
      refine ⟨_, .doStep m l₁ l₂ j _ hi.crashed hsp (.deliverPanic _ p _ hg (by simp [Chan.send, hd.capP.1, hd.capP.2, (hd.pending _ (Or.inr hg)).2]; rfl)) rfl
        (fun o ho => by simpa using ho) (by simp), rfl⟩
    | exited => exact absurd hg hji.exited.1
  | ended o =>
    cases o with
    | returned e =>
      refine ⟨_, .doStep m l₁ l₂ j _ hi.crashed hsp (.recvDone _ e _ hnw (by simp [Chan.recv, (hd.keep _ hnw hg).1 e rfl]; rfl)) rfl (by simp)
        (fun o ho => by simpa using ho), rfl⟩
    | panicked p =>
      refine ⟨_, .doStep m l₁ l₂ j _ hi.crashed hsp (.recvPanic _ p _ hnw (by simp [Chan.recv, (hd.keep _ hnw hg).2 p rfl]; rfl)) rfl (by simp)
        (fun o ho => by simpa using ho), rfl⟩
    | exited => exact absurd hg hji.exited.2

theorem exists_job {m : MR α β} {p : Job α β → Bool} (h : 0 < m.jobs.countP p) : ∃ j ∈ m.jobs, p j = true := by
  rwa [List.countP_pos_iff] at h

/-- C17: with a worker size of at least 1 and a consumer that keeps receiving, no state before the consumer has seen the
end of the output is stuck (also without any cancellation happening). With `C17_finite`: the consumer always sees the end. -/
theorem C17_progress {items : List α} {f : α → List β} {size : Nat} (hsz : 1 ≤ size) {ctx : Option Err} {m : MR α β} (h : Reach items f size ctx m)
    (hd : m.drained = false) : ∃ m', Step f m m' ∧ m'.ctx = m.ctx := by
  have hi := inv_reach h
  cases hp : m.pc with
  | select =>
    cases hg : m.gen with
    | cons x xs => exact ⟨_, .handOver m x xs hi.crashed hg hp, rfl⟩
    | nil =>
      cases hs : m.srcClosed with
      | true => exact ⟨_, .selectClosed m hi.crashed hp hs, rfl⟩
      | false => exact ⟨_, .closeSource m hi.crashed hg hs, rfl⟩
  | add x => exact ⟨_, .add m x hi.crashed hp, rfl⟩
  | run x =>
    obtain ⟨s1, s2, s3, s4⟩ := hi.slots
    by_cases hlt : m.slots.buf.length < size
    · exact ⟨_, .run m x _ hi.crashed hp (by simp [Chan.send, s2, s3, hlt]; rfl), rfl⟩
    · obtain ⟨j, hj, hoc⟩ := exists_job (p := occupies) (m := m) (by omega)
      exact job_progress hi hsz hj (fun o ho => by simp [occupies, Caller.gone, ho] at hoc)
  | wait =>
    by_cases hw : m.wg = 0
    · exact ⟨_, .waited m hi.crashed hp hw, rfl⟩
    · have := hi.wg; rw [hp] at this; simp only [Pc.running] at this
      obtain ⟨j, hj, hnd⟩ := exists_job (p := notDeferred) (m := m) (by omega)
      refine job_progress hi hsz hj (fun o ho => ?_)
      have := (hi.jobs j hj).left o ho
      simp [notDeferred, this] at hnd
  | close => exact ⟨_, .close m hi.crashed hp, rfl⟩
  | ended =>
    have hcl := hi.closed; rw [hp] at hcl
    cases hb : m.collector.buf with
    | cons u t => exact ⟨_, .consume m u _ hi.crashed (by simp [Chan.recv, hb]; rfl), rfl⟩
    | nil => exact ⟨_, .consumeEnd m hi.crashed hd (by simp [Chan.recv, hb, hcl]), rfl⟩

example : ∃ m m' : MR Nat Nat, m.jobs.map (·.sending) = [true] ∧ Step (fun x => [10 * x]) m m' :=
  have ⟨m, h, _, h2, h3⟩ := demoSending; have ⟨m', h4, _⟩ := C17_progress (by decide) h h2; ⟨m, m', h3, h4⟩

/-- C80: after cancellation the output gets closed without any help: until it is closed there is always a step that is
neither one of the consumer, nor of the generator, nor of a `mapFunc` (which may all hang). With `C17_finite` the closing is reached. -/
theorem C80_cancel_closes {items : List α} {f : α → List β} {size : Nat} (hsz : 1 ≤ size) {ctx : Option Err} {m : MR α β}
    (h : Reach items f size ctx m) (hx : m.ctx ≠ none) (hc : m.collector.closed = false) :
    ∃ m', Step f m m' ∧ m'.out = m.out ∧ m'.gen = m.gen ∧ m.jobs.map (·.writes) <+: m'.jobs.map (·.writes) ∧
      StillRunning m.jobs m'.jobs := by
  have hi := inv_reach h
  have hsame : StillRunning m.jobs m.jobs := by
    intro i j j' h1 h2; rw [h1] at h2; simp at h2; subst h2; exact id
  have hjob : ∀ j ∈ m.jobs, (∀ o, j.d.caller ≠ .left o) → ∃ m', Step f m m' ∧ m'.out = m.out ∧ m'.gen = m.gen ∧
      m.jobs.map (·.writes) <+: m'.jobs.map (·.writes) ∧
      StillRunning m.jobs m'.jobs := by
    intro j hj hl
    by_cases hnw : j.d.caller = .wait
    · have hji := hi.jobs j hj
      obtain ⟨l₁, l₂, hsp⟩ := List.append_of_mem hj
      cases hxe : j.d.ctx with
      | none => rw [hji.ctxEq] at hxe; exact absurd hxe hx
      | some e =>
        refine ⟨_, .doStep m l₁ l₂ j _ hi.crashed hsp (.recvCtx _ e hnw hxe) rfl (by simp) (fun o ho => by simpa using ho), rfl, rfl, ?_, ?_⟩
        · rw [hsp]; simp
        · rw [hsp]
          intro i a a' ha ha'
          rcases Nat.lt_trichotomy i l₁.length with hlt | heq | hgt
          · rw [List.getElem?_append_left hlt] at ha ha'; rw [ha] at ha'; simp at ha'; subst ha'; exact id
          · rw [List.getElem?_append_right (by omega)] at ha ha'
            simp [heq] at ha ha'; subst ha ha'; exact id
          · rw [List.getElem?_append_right (by omega)] at ha ha'
            obtain ⟨k, hk⟩ : ∃ k, i - l₁.length = k + 1 := ⟨i - l₁.length - 1, by omega⟩
            rw [hk] at ha ha'
            simp at ha ha'; rw [ha] at ha'; simp at ha'; subst ha'; exact id
    · obtain ⟨m', h1, _, h2, h3, h4, h5⟩ := caller_cases hi hj hl hnw
      exact ⟨m', h1, h2, h3, by rw [h4]; exact List.prefix_refl _, h5⟩
  cases hp : m.pc with
  | select => exact ⟨_, .selectDone m hi.crashed hp hx, rfl, rfl, List.prefix_refl _, hsame⟩
  | add x => exact ⟨_, .add m x hi.crashed hp, rfl, rfl, List.prefix_refl _, hsame⟩
  | run x =>
    obtain ⟨s1, s2, s3, s4⟩ := hi.slots
    by_cases hlt : m.slots.buf.length < size
    · refine ⟨_, .run m x _ hi.crashed hp (by simp [Chan.send, s2, s3, hlt]; rfl), rfl, rfl, by simp, ?_⟩
      intro i j j' h1 h2
      have hlen : i < m.jobs.length := by
        by_contra hlt; rw [List.getElem?_eq_none (by omega)] at h1; simp at h1
      rw [List.getElem?_append_left hlen, h1] at h2
      simp at h2; subst h2; exact id
    · obtain ⟨j, hj, hoc⟩ := exists_job (p := occupies) (m := m) (by omega)
      exact hjob j hj (fun o ho => by simp [occupies, Caller.gone, ho] at hoc)
  | wait =>
    by_cases hw : m.wg = 0
    · exact ⟨_, .waited m hi.crashed hp hw, rfl, rfl, List.prefix_refl _, hsame⟩
    · have := hi.wg; rw [hp] at this; simp only [Pc.running] at this
      obtain ⟨j, hj, hnd⟩ := exists_job (p := notDeferred) (m := m) (by omega)
      refine hjob j hj (fun o ho => ?_)
      have := (hi.jobs j hj).left o ho
      simp [notDeferred, this] at hnd
  | close => exact ⟨_, .close m hi.crashed hp, rfl, rfl, List.prefix_refl _, hsame⟩
  | ended => have hcl := hi.closed; rw [hp] at hcl; rw [hc] at hcl; simp at hcl

example : ∃ m m' : MR Nat Nat, m.jobs.map (·.sending) = [true] ∧ m.ctx ≠ none ∧ Step (fun x => [10 * x]) m m' ∧ StillRunning m.jobs m'.jobs :=
  have ⟨m, h, h1, h2, h3⟩ := demoCancelled; have ⟨m', h4, _, _, _, h5⟩ := C80_cancel_closes (by decide) h h1 h2; ⟨m, m', h3, h1, h4, h5⟩

/-! ## C79 -/

/-- C79 is false: after cancellation `Map` is completely finished (output closed) but the generator is still waiting to send
on `source`, and no step will ever change this: `generateFunc` never returns. -/
theorem C79_generator_refuted : ∃ m : MR Nat Nat, Reach [1, 2] (fun x => [10 * x]) 1 none m ∧ m.gen = [1, 2] ∧ m.collector.closed = true ∧
    ∀ n m', RunN (fun x => [10 * x]) n m m' → m'.gen = [1, 2] := by
  have h0 : Reach [1, 2] (fun x : Nat => [10 * x]) 1 none (start [1, 2] 1 none) := .init
  have h1 := h0.step (.cancel _ rfl rfl)
  have h2 := h1.step (.selectDone _ rfl rfl (by simp))
  have h3 := h2.step (.waited _ rfl rfl rfl)
  have h4 := h3.step (.close _ rfl rfl)
  refine ⟨_, h4, rfl, rfl, ?_⟩
  have key : ∀ (m0 m' : MR Nat Nat) (n : Nat), RunN (fun x => [10 * x]) n m0 m' → m0.gen = [1, 2] → m0.pc = .ended →
      m'.gen = [1, 2] ∧ m'.pc = .ended := by
    intro m0 m' n hr g1 g2
    induction hr with
    | nil => exact ⟨g1, g2⟩
    | snoc _ hs ih =>
      obtain ⟨i1, i2⟩ := ih g1 g2
      cases hs <;> simp_all
  exact fun n m' hr => (key _ _ n hr rfl rfl).1

/-- C79 (partial): without cancellation the generator has returned when the output is closed. -/
theorem C79_generator_partial {items : List α} {f : α → List β} {size : Nat} {ctx : Option Err} {m : MR α β} (h : Reach items f size ctx m)
    (hctx : m.ctx = none) (hc : m.collector.closed = true) : m.gen = [] ∧ m.srcClosed = true := by
  have hi := inv_reach h
  have hpc : m.pc = .ended := by
    have := hi.closed; rw [hc] at this
    cases hp : m.pc <;> rw [hp] at this <;> simp at this ⊢
  rcases hi.over (by rw [hpc]; rfl) with h' | h'
  · exact absurd hctx h'
  · exact ⟨hi.src h', h'⟩

/-- C79, exactly: once `doMap` has left its loop (for a cancellation, or because the source is closed) no further item is taken from the
generator, whatever happens: it returns if it has handed over everything by then, and otherwise never. -/
theorem C79_left {items : List α} {f : α → List β} {size : Nat} {ctx : Option Err} {n : Nat} {m m' : MR α β} (h : Reach items f size ctx m)
    (hpc : m.pc = .wait ∨ m.pc = .close ∨ m.pc = .ended) (hr : RunN f n m m') :
    m'.gen = m.gen ∧ (m'.srcClosed = true → m.gen = []) ∧ (m.gen = [] → m'.srcClosed = true ∨ ∃ m'', Step f m' m'' ∧ m''.srcClosed = true) := by
  have key : m'.gen = m.gen ∧ (m'.pc = .wait ∨ m'.pc = .close ∨ m'.pc = .ended) ∧ Reach items f size ctx m' := by
    induction hr with
    | nil => exact ⟨rfl, hpc, h⟩
    | snoc _ hs ih =>
      obtain ⟨i1, i2, i3⟩ := ih h hpc
      refine ⟨?_, ?_, i3.step hs⟩
      · cases hs <;> simp_all
      · cases hs <;> simp_all
  obtain ⟨k1, -, k3⟩ := key
  have hi := inv_reach k3
  refine ⟨k1, fun hs => k1 ▸ hi.src hs, fun hg => ?_⟩
  cases hs : m'.srcClosed with
  | true => exact .inl rfl
  | false => exact .inr ⟨_, .closeSource m' hi.crashed (k1.trans hg) hs, rfl⟩

example := C79_generator_refuted.imp fun _ h => C79_left h.1 (Or.inr (Or.inr (by
  have := (inv_reach h.1).closed
  rw [h.2.2.1] at this
  split at this
  · assumption
  · simp at this))) (.nil _)

/-- With worker size 0 an item that has been generated blocks `doMap` forever: `Map` never gets beyond it. -/
theorem C17_size_zero {items : List α} {f : α → List β} {ctx : Option Err} {m m' : MR α β} (h : Reach items f 0 ctx m) (x : α)
    (hp : m.pc = .run x) (hs : Step f m m') : m'.pc = .run x := by
  have hi := inv_reach h
  cases hs with
  | run x c hc hp' hsd =>
    obtain ⟨_, hlt, _⟩ := send_sent hsd
    have := hi.slots.2.1; omega
  | _ => simp_all

example : ∃ m : MR Nat Nat, Reach [1] (fun x => [10 * x]) 0 none m ∧ m.pc = .run 1 :=
  ⟨_, ((Reach.init : Reach [1] (fun x : Nat => [10 * x]) 0 none (start [1] 0 none)).step (.handOver _ 1 [] rfl rfl rfl)).step (.add _ 1 rfl rfl), rfl⟩

/-- The default worker size is 16; the last option wins; a negative size panics. -/
theorem C17_options (items : List α) (ctx : Option Err) (opts : List Int) :
    loadOption opts = opts.getLast?.getD 16 ∧ ((map items ctx opts : Option (MR α β)) = none ↔ loadOption opts < 0) := by
  constructor
  · have : ∀ (l : List Int) (n : Int), l.foldl (fun _ n => n) n = l.getLast?.getD n := by
      intro l
      induction l with
      | nil => simp
      | cons a l ih => intro n; simp only [List.foldl_cons, ih, List.getLast?_cons]; rfl
    exact this opts 16
  · unfold map; split <;> simp_all

example : loadOption [4, 8] = 8 ∧ loadOption [] = 16 ∧ (map [1] none [3, -1] : Option (MR Nat Nat)) = none :=
  ⟨(C17_options (β := Nat) [1] none [4, 8]).1, (C17_options (β := Nat) [1] none []).1, (C17_options [1] none [3, -1]).2.mpr (by decide)⟩

end Verif.XMapReduce

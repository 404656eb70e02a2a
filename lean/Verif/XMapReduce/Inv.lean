import Verif.XMapReduce.Model
import Verif.XTask.DoProps
/-! # Invariant of `Map` -/
namespace Verif.XMapReduce
open Verif.Go Verif.XTask

variable {α β : Type}

/-- `Do` has returned (do.go:28-62). -/
def Caller.gone : Caller Err Unit → Bool
  | .left _ => true
  | _ => false

/-- Proof only: part of an invariant or simulation; models no code. -/
structure JobInv (f : α → List β) (ctx : Option Err) (closed : Bool) (j : Job α β) : Prop where
  reach : ∃ c0, DoReach true c0 j.d
  ctxEq : j.d.ctx = ctx
  ret : ∀ e, (j.d.gor = .finished (.returned e) ∨ j.d.gor = .ended (.returned e)) → j.writes = []
  fresh : j.d.gor = .none → j.writes = f j.item ∧ j.sending = false
  defd : j.deferred = true → ∃ o, j.d.caller = .leave o ∨ j.d.caller = .left o
  left : ∀ o, j.d.caller = .left o → j.deferred = true
  panicked : (j.d.gor = .finished (.panicked ()) ∨ j.d.gor = .ended (.panicked ())) →
    closed = true ∧ ∃ e, j.d.caller = .leave (.err e) ∨ j.d.caller = .left (.err e)
  exited : j.d.gor ≠ .finished .exited ∧ j.d.gor ≠ .ended .exited
  sending : j.sending = true → j.writes ≠ []
  results : ctx = none → ∀ b ∈ j.results, b = true

theorem forall_repl {γ : Type} {P : γ → Prop} {l₁ l₂ : List γ} {a b : γ} (h : ∀ x ∈ l₁ ++ a :: l₂, P x) (hb : P b) :
    ∀ x ∈ l₁ ++ b :: l₂, P x := by
  intro x hx
  simp only [List.mem_append, List.mem_cons] at hx h
  rcases hx with hx | rfl | hx
  · exact h x (Or.inl hx)
  · exact hb
  · exact h x (Or.inr (Or.inr hx))

theorem out_err {c0 : Option Err} {d : DoSt Err Unit} (h : DoReach true c0 d) (hr : ∀ p, d.gor ≠ .ended (.panicked p)) {o : Out Err Unit}
    (ho : d.caller = .leave o ∨ d.caller = .left o) : ∃ e, o = .err e := by
  rcases (do_inv h).out o ho with ⟨e, he, _⟩ | ⟨p, _, hp⟩
  · exact ⟨e, he⟩
  · exact absurd hp (hr p)

theorem leaving_stable {d d' : DoSt Err Unit} (h : DoStep true d d') {o : Out Err Unit}
    (hd : d.caller = .leave o ∨ d.caller = .left o) : d'.caller = .leave o ∨ d'.caller = .left o := by
  rcases hd with hd | hd <;> cases h <;> simp_all

/-- A step of `Do` inside a job. -/
theorem JobInv.doStep {f : α → List β} {ctx : Option Err} {closed : Bool} {j : Job α β} (h : JobInv f ctx closed j) {d' : DoSt Err Unit}
    (hd : DoStep true j.d d') (hctx : d'.ctx = j.d.ctx) (hl : ∀ o, d'.caller = .left o → j.d.caller = .left o)
    (hf : ∀ o, d'.gor = .finished o → j.d.gor = .finished o) : JobInv f ctx closed { j with d := d' } := by
  obtain ⟨⟨c0, h1⟩, h2, h3, h4, h5, h6, h7, h8, h9, h10⟩ := h
  have hg : d'.gor = j.d.gor ∨ (j.d.gor = .none ∧ d'.gor = .running) ∨ (∃ o, j.d.gor = .finished o ∧ d'.gor = .ended o) := by
    cases hd <;> try (first | exact Or.inl rfl | (refine Or.inr (Or.inr ⟨_, by assumption, rfl⟩)))
    case spawn hc => exact Or.inr (Or.inl ⟨((do_inv h1).entry (by rw [hc]; trivial)).1, rfl⟩)
    case finish o hg => have := hf o rfl; rw [hg] at this; simp at this
  refine ⟨⟨c0, h1.step hd⟩, hctx.trans h2, ?_, ?_, ?_, ?_, ?_, ?_, h9, h10⟩
  · intro e he
    rcases hg with hg | ⟨hg, hg'⟩ | ⟨o, hg, hg'⟩
    · rw [hg] at he; exact h3 e he
    · rw [hg'] at he; simp at he
    · rw [hg'] at he; simp at he; subst he; exact h3 e (Or.inl hg)
  · intro he
    rcases hg with hg | ⟨hg, hg'⟩ | ⟨o, hg, hg'⟩
    · rw [hg] at he; exact h4 he
    · exact h4 hg
    · rw [hg'] at he; simp at he
  · intro hdf
    obtain ⟨o, ho⟩ := h5 hdf
    exact ⟨o, leaving_stable hd ho⟩
  · intro o ho; exact h6 o (hl o ho)
  · intro hp
    have : closed = true ∧ ∃ e, j.d.caller = .leave (.err e) ∨ j.d.caller = .left (.err e) := by
      apply h7
      rcases hg with hg | ⟨hg, hg'⟩ | ⟨o, hg, hg'⟩
      · rw [hg] at hp; exact hp
      · rw [hg'] at hp; simp at hp
      · rw [hg'] at hp; simp at hp; subst hp; exact Or.inl hg
    obtain ⟨hc, e, he⟩ := this
    exact ⟨hc, e, leaving_stable hd he⟩
  · show d'.gor ≠ _ ∧ d'.gor ≠ _
    rcases hg with hg | ⟨hg, hg'⟩ | ⟨o, hg, hg'⟩
    · rw [hg]; exact h8
    · rw [hg']; simp
    · rw [hg']
      refine ⟨by simp, fun h' => ?_⟩
      simp at h'; subst h'; exact h8.1 hg

/-- Counting helpers. -/
def cnt (p : Job α β → Bool) (l : List (Job α β)) : Nat := l.countP p
/-- Proof only: how many values with `p` are still to be written. -/
def pend (p : β → Bool) (l : List (Job α β)) : Nat := (l.map fun j => j.writes.countP p).sum

/-- `waitGroup.Done()` (xmapreduce.go:112) has not been called. -/
def notDeferred (j : Job α β) : Bool := !j.deferred
/-- The job has its slot of the worker (xworker.go:37-45). -/
def occupies (j : Job α β) : Bool := !Caller.gone j.d.caller

/-- The item that `doMap` has received and not handed to the worker. -/
def Pc.items : Pc α → List α
  | .add x | .run x => [x]
  | _ => []

/-- Proof only: `waitGroup.Add(1)` (xmapreduce.go:108) has been called for an item without a job. -/
def Pc.running : Pc α → Nat
  | .run _ => 1
  | _ => 0

/-- Proof only: `doMap` is behind `waitGroup.Wait()` (xmapreduce.go:94). -/
def Pc.final : Pc α → Bool
  | .close | .ended => true
  | _ => false

/-- Proof only: `doMap` has left its loop. -/
def Pc.over : Pc α → Bool
  | .wait | .close | .ended => true
  | _ => false

/-- Proof only: part of an invariant or simulation; models no code. -/
structure Inv (items : List α) (f : α → List β) (size : Nat) (m : MR α β) : Prop where
  crashed : m.crashed = false
  jobs : ∀ j ∈ m.jobs, JobInv f m.ctx m.collector.closed j
  wg : m.wg = (m.jobs.countP notDeferred : Int) + (m.pc.running : Int)
  slots : m.slots.buf.length = m.jobs.countP occupies ∧ m.slots.cap = size ∧ m.slots.closed = false ∧ m.slots.buf.length ≤ size
  coll : m.collector.cap = size ∧ m.collector.buf.length ≤ size
  closed : m.collector.closed = (match m.pc with | .ended => true | _ => false)
  closes : m.closes = (match m.pc with | .ended => 1 | _ => 0)
  final : m.pc.final = true → m.wg = 0
  over : m.pc.over = true → m.ctx ≠ none ∨ m.srcClosed = true
  src : m.srcClosed = true → m.gen = []
  countLe : ∀ p : β → Bool, m.out.countP p + m.collector.buf.countP p + pend p m.jobs + (m.pc.items.flatMap f).countP p + (m.gen.flatMap f).countP p ≤
    (items.flatMap f).countP p
  countEq : m.ctx = none → ∀ p : β → Bool, m.out.countP p + m.collector.buf.countP p + pend p m.jobs + (m.pc.items.flatMap f).countP p +
    (m.gen.flatMap f).countP p = (items.flatMap f).countP p
  drained : m.drained = true → m.collector.closed = true ∧ m.collector.buf = []
  started : ∀ x, x ∈ items ↔ x ∈ m.jobs.map (·.item) ∨ x ∈ m.pc.items ∨ x ∈ m.gen

theorem inv_init (items : List α) (f : α → List β) (size : Nat) (ctx : Option Err) : Inv items f size (start items size ctx : MR α β) := by
  constructor <;> simp [start, Chan.make, Pc.running, Pc.final, Pc.over, Pc.items, pend]

theorem send_sent {γ : Type} {c c' : Chan γ} {v : γ} (h : c.send v = .sent c') :
    c.closed = false ∧ c.buf.length < c.cap ∧ c' = { c with buf := c.buf ++ [v] } := by
  unfold Chan.send at h
  split at h
  · simp at h
  · split at h
    · simp only [Chan.SendRes.sent.injEq] at h; exact ⟨by simp_all, by assumption, h.symm⟩
    · simp at h

theorem recv_got {γ : Type} {c c' : Chan γ} {v : γ} (h : c.recv = .got v c') : c.buf = v :: c'.buf ∧ c' = { c with buf := c'.buf } := by
  unfold Chan.recv at h
  split at h
  · rename_i v' vs heq
    simp only [Chan.RecvRes.got.injEq] at h
    obtain ⟨rfl, rfl⟩ := h
    exact ⟨heq, rfl⟩
  · split at h <;> simp at h

theorem zero_of_countP {γ : Type} {p : γ → Bool} {l : List γ} (h : l.countP p = 0) : ∀ x ∈ l, p x = false := by
  intro x hx
  rw [List.countP_eq_zero] at h
  simpa using h x hx

theorem inv_step {items : List α} {f : α → List β} {size : Nat} {m m' : MR α β} (h : Inv items f size m) (hs : Step f m m') :
    Inv items f size m' := by
  have hdef : m.collector.closed = true → ∀ j ∈ m.jobs, j.deferred = true := by
    intro hc j hj
    have hpc : m.pc = .ended := by
      have := h.closed; rw [hc] at this
      cases hp : m.pc <;> rw [hp] at this <;> simp at this ⊢
    have hw := h.final (by rw [hpc]; rfl)
    have h2 := h.wg
    rw [hpc] at h2
    simp only [Pc.running] at h2
    have := zero_of_countP (p := notDeferred) (l := m.jobs) (by omega) j hj
    simpa [notDeferred] using this
  obtain ⟨a1, a2, a3, a4, a5, a6, a7, a8, a9, a10, a11, a12, a13, a14⟩ := h
  cases hs with
  | cancel hc hx =>
    refine ⟨a1, ?_, ?_, ?_, a5, a6, a7, a8, ?_, a10, ?_, ?_, a13, ?_⟩
    · intro j hj
      obtain ⟨j0, hj0, rfl⟩ := List.mem_map.1 hj
      obtain ⟨⟨c0, h1⟩, h2, h3, h4, h5, h6, h7, h8, h9, h10⟩ := a2 j0 hj0
      exact ⟨⟨c0, h1.step (.cancel _ _ (h2.trans hx))⟩, rfl, h3, h4, h5, h6, h7, h8, h9, by simp⟩
    · rw [List.countP_map]; exact a3
    · rw [List.countP_map]; exact a4
    · simp
    · simpa [pend, Function.comp_def] using a11
    · simp
    · simpa [Function.comp_def] using a14
  | handOver x xs hc hg hp =>
    simp only [hp] at a3 a6 a7 a8 a9 a11 a12 a14
    refine ⟨a1, a2, by simpa [Pc.running] using a3, a4, a5, by simpa using a6, by simpa using a7, by simp [Pc.final], by simp [Pc.over], ?_, ?_, ?_, a13, ?_⟩
    · intro hs; have := a10 hs; rw [hg] at this; simp at this
    · intro p; have := a11 p; rw [hg] at this; simp [Pc.items, List.countP_append] at this ⊢; omega
    · intro hx p; have := a12 hx p; rw [hg] at this; simp [Pc.items, List.countP_append] at this ⊢; omega
    · intro y; have := a14 y; rw [hg] at this; simp only [Pc.items, List.mem_cons, List.not_mem_nil, or_false, false_or] at this ⊢; exact this
  | closeSource hc hg hsr =>
    exact ⟨a1, a2, a3, a4, a5, a6, a7, a8, fun _ => Or.inr rfl, fun _ => hg, a11, a12, a13, a14⟩
  | selectDone hc hp hx =>
    simp only [hp] at a3 a6 a7 a8 a9 a11 a12 a14
    exact ⟨a1, a2, by simpa [Pc.running] using a3, a4, a5, by simpa using a6, by simpa using a7, by simp [Pc.final], fun _ => Or.inl hx, a10,
      by simpa [Pc.items] using a11, by simpa [Pc.items] using a12, a13, by simpa [Pc.items] using a14⟩
  | selectClosed hc hp hx =>
    simp only [hp] at a3 a6 a7 a8 a9 a11 a12 a14
    exact ⟨a1, a2, by simpa [Pc.running] using a3, a4, a5, by simpa using a6, by simpa using a7, by simp [Pc.final], fun _ => Or.inr hx, a10,
      by simpa [Pc.items] using a11, by simpa [Pc.items] using a12, a13, by simpa [Pc.items] using a14⟩
  | add x hc hp =>
    simp only [hp] at a3 a6 a7 a8 a9 a11 a12 a14
    refine ⟨a1, a2, ?_, a4, a5, by simpa using a6, by simpa using a7, by simp [Pc.final], by simp [Pc.over], a10,
      by simpa [Pc.items] using a11, by simpa [Pc.items] using a12, a13, by simpa [Pc.items] using a14⟩
    simp [Pc.running] at a3 ⊢; omega
  | run x c hc hp hsd =>
    simp only [hp] at a3 a6 a7 a8 a9 a11 a12 a14
    obtain ⟨b1, b2, rfl⟩ := send_sent hsd
    refine ⟨a1, ?_, ?_, ?_, a5, by simpa using a6, by simpa using a7, by simp [Pc.final], by simp [Pc.over], a10, ?_, ?_, a13, ?_⟩
    · intro j hj
      simp only [List.mem_append, List.mem_singleton] at hj
      rcases hj with hj | rfl
      · exact a2 j hj
      · refine ⟨⟨m.ctx, .init⟩, rfl, ?_, ?_, ?_, ?_, ?_, ?_, ?_, ?_⟩ <;> simp [Job.new, doInit]
    · simp [Pc.running, List.countP_append, notDeferred, Job.new] at a3 ⊢; omega
    · refine ⟨?_, a4.2.1, a4.2.2.1, ?_⟩
      · simp [List.countP_append, occupies, Job.new, doInit, Caller.gone, a4.1]
      · simp; omega
    · intro p; have := a11 p; simp [Pc.items, pend, Job.new] at this ⊢; omega
    · intro hx p; have := a12 hx p; simp [Pc.items, pend, Job.new] at this ⊢; omega
    · intro y
      have := a14 y
      simp only [Pc.items, List.mem_singleton, List.map_append, List.map_cons, List.map_nil, List.mem_append, Job.new, List.not_mem_nil, false_or] at this ⊢
      rw [this, or_assoc]
  | doStep l₁ l₂ j d' hc hj hd hctx hl hf =>
    rw [hj] at a2 a3 a4 a11 a12 a14
    have hji := a2 j (by simp)
    refine ⟨a1, forall_repl a2 (hji.doStep hd hctx hl hf), ?_, ?_, a5, a6, a7, a8, a9, a10, ?_, ?_, a13, ?_⟩
    · simpa [List.countP_cons, notDeferred] using a3
    · have : occupies { j with d := d' } = occupies j := by
        unfold occupies Caller.gone
        cases hcd : j.d.caller with
        | left o => simp [left_stable' hd hcd]
        | _ =>
          cases hcd' : d'.caller with
          | left o => have := hl o hcd'; rw [hcd] at this; simp at this
          | _ => simp
      simpa [List.countP_cons, this] using a4
    · simpa [pend] using a11
    · simpa [pend] using a12
    · simpa using a14
  | writeGo l₁ l₂ j v vs hc hj hg hw hsn hx =>
    rw [hj] at a2 a3 a4 a11 a12 a14
    obtain ⟨⟨c0, h1⟩, h2, h3, h4, h5, h6, h7, h8, h9, h10⟩ := a2 j (by simp)
    refine ⟨a1, forall_repl a2 ?_, ?_, ?_, a5, a6, a7, a8, a9, a10, ?_, ?_, a13, ?_⟩
    · exact ⟨⟨c0, h1⟩, h2, h3, fun h' => by rw [hg] at h'; simp at h', h5, h6, h7, h8, fun _ => by rw [hw]; simp, h10⟩
    · simpa [List.countP_cons, notDeferred] using a3
    · simpa [List.countP_cons, occupies] using a4
    · simpa [pend] using a11
    · simpa [pend] using a12
    · simpa using a14
  | writeDone l₁ l₂ j v vs hc hj hg hw hsn hx =>
    rw [hj] at a2 a3 a4 a11 a12 a14
    obtain ⟨⟨c0, h1⟩, h2, h3, h4, h5, h6, h7, h8, h9, h10⟩ := a2 j (by simp)
    refine ⟨a1, forall_repl a2 ?_, ?_, ?_, a5, a6, a7, a8, a9, a10, ?_, ?_, a13, ?_⟩
    · refine ⟨⟨c0, h1⟩, h2, fun e h' => by rw [hg] at h'; simp at h', fun h' => by rw [hg] at h'; simp at h', h5, h6, h7, h8, ?_, fun h' => absurd h' hx⟩
      intro h'; simp only [hsn] at h'; simp at h'
    · simpa [List.countP_cons, notDeferred] using a3
    · simpa [List.countP_cons, occupies] using a4
    · intro p; have := a11 p
      have hw' : j.writes.countP p = (v :: vs).countP p := by rw [hw]
      simp [pend, List.countP_cons] at this hw' ⊢; omega
    · intro h'; exact absurd h' hx
    · simpa using a14
  | writeSent l₁ l₂ j v vs c hc hj hg hw hsn hsd =>
    rw [hj] at a2 a3 a4 a11 a12 a14
    obtain ⟨b1, b2, rfl⟩ := send_sent hsd
    obtain ⟨⟨c0, h1⟩, h2, h3, h4, h5, h6, h7, h8, h9, h10⟩ := a2 j (by simp)
    refine ⟨a1, forall_repl a2 ?_, ?_, ?_, ?_, a6, a7, a8, a9, a10, ?_, ?_, ?_, ?_⟩
    · refine ⟨⟨c0, h1⟩, h2, fun e h' => by rw [hg] at h'; simp at h', fun h' => by rw [hg] at h'; simp at h', h5, h6, h7, h8, by simp, ?_⟩
      intro hx b hb
      simp only [List.mem_append, List.mem_singleton] at hb
      rcases hb with hb | hb
      · exact h10 hx b hb
      · exact hb
    · simpa [List.countP_cons, notDeferred] using a3
    · simpa [List.countP_cons, occupies] using a4
    · refine ⟨a5.1, ?_⟩; simp; have := a5.1; omega
    · intro p; have := a11 p
      have hw' : j.writes.countP p = (v :: vs).countP p := by rw [hw]
      simp [pend, List.countP_cons, List.countP_append] at this hw' ⊢; omega
    · intro hx p; have := a12 hx p
      have hw' : j.writes.countP p = (v :: vs).countP p := by rw [hw]
      simp [pend, List.countP_cons, List.countP_append] at this hw' ⊢; omega
    · intro hdr; have := (a13 hdr).1; rw [b1] at this; simp at this
    · simpa using a14
  | writePanic l₁ l₂ j v vs d' hc hj hg hw hsn hsd hd hf =>
    have hclosed : m.collector.closed = true := by
      unfold Chan.send at hsd
      split at hsd
      · assumption
      · split at hsd <;> simp at hsd
    have hjd := hdef hclosed j (by rw [hj]; simp)
    rw [hj] at a2 a3 a4 a11 a12 a14
    obtain ⟨⟨c0, h1⟩, h2, h3, h4, h5, h6, h7, h8, h9, h10⟩ := a2 j (by simp)
    obtain ⟨o, ho⟩ := h5 hjd
    obtain ⟨e, rfl⟩ := out_err h1 (by rw [hg]; simp) ho
    have hd' : d' = { j.d with gor := .finished (.panicked ()) } := by cases hd <;> simp_all
    subst hd'
    refine ⟨a1, forall_repl a2 ?_, ?_, ?_, a5, a6, a7, a8, a9, a10, ?_, ?_, a13, ?_⟩
    · exact ⟨⟨c0, h1.step hd⟩, h2, by simp, by simp, h5, h6, fun _ => ⟨hclosed, e, ho⟩, by simp, h9, h10⟩
    · simpa [List.countP_cons, notDeferred] using a3
    · simpa [List.countP_cons, occupies] using a4
    · simpa [pend] using a11
    · simpa [pend] using a12
    · simpa using a14
  | mapReturn l₁ l₂ j d' hc hj hg hw hd hf =>
    rw [hj] at a2 a3 a4 a11 a12 a14
    obtain ⟨⟨c0, h1⟩, h2, h3, h4, h5, h6, h7, h8, h9, h10⟩ := a2 j (by simp)
    have hd' : d' = { j.d with gor := .finished (.returned .nil) } := by cases hd <;> simp_all
    subst hd'
    refine ⟨a1, forall_repl a2 ?_, ?_, ?_, a5, a6, a7, a8, a9, a10, ?_, ?_, a13, ?_⟩
    · exact ⟨⟨c0, h1.step hd⟩, h2, fun _ _ => hw, by simp, h5, h6, by simp, by simp, h9, h10⟩
    · simpa [List.countP_cons, notDeferred] using a3
    · simpa [List.countP_cons, occupies] using a4
    · simpa [pend] using a11
    · simpa [pend] using a12
    · simpa using a14
  | done l₁ l₂ j o hc hj hl hdf =>
    rw [hj] at a2 a3 a4 a11 a12 a14
    obtain ⟨⟨c0, h1⟩, h2, h3, h4, h5, h6, h7, h8, h9, h10⟩ := a2 j (by simp)
    have hnd : notDeferred j = true := by simp [notDeferred, hdf]
    simp [List.countP_cons, hnd] at a3
    refine ⟨?_, forall_repl a2 ?_, ?_, ?_, a5, a6, a7, ?_, a9, a10, ?_, ?_, a13, ?_⟩
    · simp; omega
    · exact ⟨⟨c0, h1⟩, h2, h3, h4, fun _ => ⟨o, Or.inl hl⟩, fun _ _ => rfl, h7, h8, h9, h10⟩
    · simp [List.countP_cons, notDeferred] at a3 ⊢; omega
    · simpa [List.countP_cons, occupies] using a4
    · intro hf; have := a8 hf; exfalso; omega
    · simpa [pend] using a11
    · simpa [pend] using a12
    · simpa using a14
  | release l₁ l₂ j o d' c hc hj hl hdf hr hd hl' =>
    rw [hj] at a2 a3 a4 a11 a12 a14
    obtain ⟨⟨c0, h1⟩, h2, h3, h4, h5, h6, h7, h8, h9, h10⟩ := a2 j (by simp)
    obtain ⟨b1, b2⟩ := recv_got hr
    have hd' : d'.gor = j.d.gor ∧ d'.ctx = j.d.ctx := by
      cases hd <;> first | exact ⟨rfl, rfl⟩ | (simp only [hl] at hl'; simp at hl')
    have herr : ∃ e, o = .err e := by
      rcases (do_inv h1).out o (Or.inl hl) with ⟨e, he, _⟩ | ⟨p, _, hp⟩
      · exact ⟨e, he⟩
      · obtain ⟨_, e, he⟩ := h7 (Or.inr hp)
        rw [hl] at he
        simp at he
        exact ⟨e, he⟩
    obtain ⟨e, rfl⟩ := herr
    have ho1 : occupies j = true := by simp [occupies, Caller.gone, hl]
    have ho2 : occupies { j with d := d' } = false := by simp [occupies, Caller.gone, hl']
    refine ⟨rfl, forall_repl a2 ?_, ?_, ?_, a5, a6, a7, a8, a9, a10, ?_, ?_, a13, ?_⟩
    · refine ⟨⟨c0, h1.step hd⟩, hd'.2.trans h2, ?_, ?_, fun _ => ⟨_, Or.inr hl'⟩, fun _ _ => hdf, ?_, ?_, h9, h10⟩
      · intro e he; simp only [hd'.1] at he; exact h3 e he
      · intro he; simp only [hd'.1] at he; exact h4 he
      · intro he; simp only [hd'.1] at he; exact ⟨(h7 he).1, e, Or.inr hl'⟩
      · show d'.gor ≠ _ ∧ d'.gor ≠ _
        rw [hd'.1]; exact h8
    · simpa [List.countP_cons, notDeferred] using a3
    · rw [b2]
      rw [b1] at a4
      simp [List.countP_cons, ho1, ho2] at a4 ⊢
      refine ⟨by omega, a4.2.1, a4.2.2.1, by omega⟩
    · simpa [pend] using a11
    · simpa [pend] using a12
    · simpa using a14
  | waited hc hp hw =>
    simp only [hp] at a3 a6 a7 a8 a9 a11 a12 a14
    exact ⟨a1, a2, by simpa [Pc.running] using a3, a4, a5, by simpa using a6, by simpa using a7, fun _ => hw, fun _ => a9 rfl, a10,
      by simpa [Pc.items] using a11, by simpa [Pc.items] using a12, a13, by simpa [Pc.items] using a14⟩
  | close hc hp =>
    simp only [hp] at a3 a6 a7 a8 a9 a11 a12 a14
    refine ⟨a6, ?_, by simpa [Pc.running] using a3, a4, a5, rfl, by simpa using a7, fun _ => a8 rfl, fun _ => a9 rfl, a10,
      by simpa [Pc.items] using a11, by simpa [Pc.items] using a12, ?_, by simpa [Pc.items] using a14⟩
    · intro j hj
      obtain ⟨h1, h2, h3, h4, h5, h6, h7, h8, h9, h10⟩ := a2 j hj
      exact ⟨h1, h2, h3, h4, h5, h6, fun h' => ⟨rfl, (h7 h').2⟩, h8, h9, h10⟩
    · intro hdr; exact ⟨rfl, (a13 hdr).2⟩
  | consume v c hc hr =>
    obtain ⟨b1, b2⟩ := recv_got hr
    rw [b2]
    rw [b1] at a5 a11 a12 a13
    refine ⟨a1, a2, a3, a4, ⟨a5.1, ?_⟩, a6, a7, a8, a9, a10, ?_, ?_, ?_, a14⟩
    · have := a5.2; simp at this ⊢; omega
    · intro p; have := a11 p; simp [List.countP_cons, List.countP_append] at this ⊢; omega
    · intro hx p; have := a12 hx p; simp [List.countP_cons, List.countP_append] at this ⊢; omega
    · intro hdr; have := (a13 hdr).2; simp at this
  | consumeEnd hc hdr hr =>
    have hce : m.collector.closed = true ∧ m.collector.buf = [] := by
      unfold Chan.recv at hr
      split at hr
      · simp at hr
      · split at hr
        · exact ⟨by assumption, by assumption⟩
        · simp at hr
    exact ⟨a1, a2, a3, a4, a5, a6, a7, a8, a9, a10, a11, a12, fun _ => hce, a14⟩
where
  left_stable' {d d' : DoSt Err Unit} (h : DoStep true d d') {o : Out Err Unit} (hd : d.caller = .left o) : d'.caller = .left o := by
    cases h <;> simp_all

theorem inv_reach {items : List α} {f : α → List β} {size : Nat} {ctx : Option Err} {m : MR α β} (h : Reach items f size ctx m) :
    Inv items f size m := by
  induction h with
  | init => exact inv_init items f size ctx
  | step _ hs ih => exact inv_step ih hs

end Verif.XMapReduce

import Verif.XMapReduce.Panic
import Verif.XMapReduce.Props
/-! # Panics of the functions given to `Map` (C112) -/
namespace Verif.XMapReduce
open Verif.Go Verif.XTask

variable {α β : Type}

/-! ## A panic seen as a return -/

/-- Proof only: a `mapFunc` that has panicked is replaced by one that has returned. -/
def calmO : Outcome Err Unit → Outcome Err Unit
  | .panicked _ => .returned .nil
  | o => o

/-- Proof only: a `mapFunc` that has panicked is replaced by one that has returned. -/
def calmOut : Out Err Unit → Out Err Unit
  | .panic _ => .err .nil
  | o => o

/-- Proof only: a `mapFunc` that has panicked is replaced by one that has returned. -/
def calmG : Gor Err Unit → Gor Err Unit
  | .finished o => .finished (calmO o)
  | .ended o => .ended (calmO o)
  | g => g

/-- Proof only: a `mapFunc` that has panicked is replaced by one that has returned. -/
def calmC : Caller Err Unit → Caller Err Unit
  | .leave o => .leave (calmOut o)
  | .left o => .left (calmOut o)
  | c => c

/-- The state of `Do` if its function had returned nil instead of panicking. -/
def calm (d : DoSt Err Unit) : DoSt Err Unit :=
  { d with doneChan := { d.doneChan with buf := d.doneChan.buf ++ d.panicChan.buf.map fun _ => .nil }, panicChan := { d.panicChan with buf := [] },
           caller := calmC d.caller, gor := calmG d.gor }

theorem calm_step {c0 : Option Err} {d d' : DoSt Err Unit} (h : DoReach true c0 d) (hs : DoStep true d d') : DoStep true (calm d) (calm d') := by
  have hi := do_inv h
  cases hs with
  | cancel e hc => exact .cancel (calm d) e hc
  | entryDone e hc hx => exact .entryDone (calm d) e (by simp [calm, hc, calmC]) hx
  | entryGo hc hx => exact .entryGo (calm d) (by simp [calm, hc, calmC]) hx
  | spawn hc => exact .spawn (calm d) (by simp [calm, hc, calmC])
  | finish o hg => exact .finish (calm d) (calmO o) (by simp [calm, hg, calmG])
  | deliverRet e c hg hsd =>
    obtain ⟨b1, b2⟩ := hi.pending _ (.inr hg)
    simp only [Chan.send, hi.capD.1, hi.capD.2, b1, Bool.false_eq_true, if_false, List.length_nil, Nat.zero_lt_one, if_true, Chan.SendRes.sent.injEq] at hsd
    subst hsd
    have := DoStep.deliverRet (hasDefer := true) (calm d) e ⟨[e], 1, false⟩ (by simp [calm, hg, calmG, calmO]) (by simp [calm, Chan.send, b1, b2, hi.capD.1, hi.capD.2])
    simpa [calm, b2, calmG, calmO] using this
  | deliverPanic p c hg hsd =>
    obtain ⟨b1, b2⟩ := hi.pending _ (.inr hg)
    simp only [Chan.send, hi.capP.1, hi.capP.2, b2, Bool.false_eq_true, if_false, List.length_nil, Nat.zero_lt_one, if_true, Chan.SendRes.sent.injEq] at hsd
    subst hsd
    have := DoStep.deliverRet (hasDefer := true) (calm d) .nil ⟨[.nil], 1, false⟩ (by simp [calm, hg, calmG, calmO]) (by simp [calm, Chan.send, b1, b2, hi.capD.1, hi.capD.2])
    simpa [calm, b1, b2, calmG, calmO, hi.capD.1, hi.capD.2, hi.capP.1, hi.capP.2] using this
  | deliverNone hg => exact .deliverNone (calm d) (by simp [calm, hg, calmG, calmO])
  | recvPanic p c hc hr =>
    obtain ⟨e1, e2⟩ := recv_got hr
    obtain ⟨b1, b2⟩ := hi.bufP p (by rw [e1]; simp)
    have b3 : d.doneChan.buf = [] := by
      cases hb : d.doneChan.buf with
      | nil => rfl
      | cons e l => have := (hi.bufD e (by rw [hb]; simp)).1; rw [b1] at this; simp at this
    have b4 : c.buf = [] := by rw [e1] at b2; simpa using b2
    have := DoStep.recvDone (hasDefer := true) (calm d) .nil { d.doneChan with buf := [] } (by simp [calm, hc, calmC]) (by simp [calm, Chan.recv, b2, b3])
    rw [e2]
    simpa [calm, b3, b4, calmC, calmOut] using this
  | recvDone e c hc hr =>
    obtain ⟨e1, e2⟩ := recv_got hr
    obtain ⟨b1, b2⟩ := hi.bufD e (by rw [e1]; simp)
    have b3 : d.panicChan.buf = [] := by
      cases hb : d.panicChan.buf with
      | nil => rfl
      | cons e l => have := (hi.bufP e (by rw [hb]; simp)).1; rw [b1] at this; simp at this
    have b4 : c.buf = [] := by rw [e1] at b2; simpa using b2
    have := DoStep.recvDone (hasDefer := true) (calm d) e { d.doneChan with buf := [] } (by simp [calm, hc, calmC]) (by simp [calm, Chan.recv, b2, b3])
    rw [e2]
    simpa [calm, b3, b4, calmC, calmOut] using this
  | recvCtx e hc hx => exact .recvCtx (calm d) e (by simp [calm, hc, calmC]) hx
  | leave o hc => exact .leave (calm d) (calmOut o) (by simp [calm, hc, calmC])

/-- Before the function has ended nothing changes. -/
theorem calm_running {c0 : Option Err} {d : DoSt Err Unit} (h : DoReach true c0 d) (hg : d.gor = .running ∨ d.gor = .none) : calm d = d := by
  have hi := do_inv h
  have hb : d.doneChan.buf = [] ∧ d.panicChan.buf = [] := by
    rcases hg with hg | hg
    · exact hi.pending .exited (.inl hg)
    · exact (hi.notStarted hg).2
  have hc : calmC d.caller = d.caller := by
    cases hc : d.caller with
    | leave o | left o =>
      rcases hi.out o (by simp [hc]) with ⟨e, rfl, _⟩ | ⟨p, _, hp⟩
      · rfl
      · rw [hp] at hg; simp at hg
    | _ => rfl
  have hg' : calmG d.gor = d.gor := by rcases hg with hg | hg <;> rw [hg] <;> rfl
  cases d with
  | mk c dc pc cl g ds st =>
    cases dc; cases pc
    simp only at hb hc hg'
    simp [calm, hb.1, hb.2, hc, hg']

/-- A job if `mapFunc` had returned instead of panicking. -/
def calmJ (dies : α → Bool) (j : Job α β) : Job α β := { j with d := if dies j.item = true ∧ j.writes = [] then calm j.d else j.d }

/-- Proof only: a `mapFunc` that has panicked is replaced by one that has returned. -/
def calmM (dies : α → Bool) (m : MR α β) : MR α β := { m with jobs := m.jobs.map (calmJ dies) }

/-- Proof only: invariant of a job whose `mapFunc` can panic. -/
structure JobP (dies : α → Bool) (ctx : Option Err) (j : Job α β) : Prop where
  reach : ∃ c0, DoReach true c0 j.d
  ctxEq : j.d.ctx = ctx
  noRet : dies j.item = true → ∀ e, j.d.gor ≠ .finished (.returned e) ∧ j.d.gor ≠ .ended (.returned e)
  left : ∀ o, j.d.caller = .left o → ∃ e, o = .err e

theorem JobP.doStep {dies : α → Bool} {ctx : Option Err} {j j' : Job α β} (h : JobP dies ctx j) (hj : j'.item = j.item) (hs : DoStep true j.d j'.d)
    (hctx : j'.d.ctx = j.d.ctx) (hf : dies j.item = true → ∀ e, j.d.gor = .running → j'.d.gor ≠ .finished (.returned e))
    (hl : ∀ o, j'.d.caller = .left o → j.d.caller = .left o ∨ ∃ e, o = .err e) : JobP dies ctx j' := by
  obtain ⟨⟨c0, h1⟩, h2, h3, h4⟩ := h
  refine ⟨⟨c0, h1.step hs⟩, hctx.trans h2, fun hd e => ?_, fun o ho => ?_⟩
  · rw [hj] at hd
    have h5 := h3 hd e
    have h6 := hf hd e
    generalize j'.d = d' at hs h6
    cases hs <;> simp_all
  · rcases hl o ho with h | h
    · exact h4 o h
    · exact h

theorem doStep_finish {d d' : DoSt Err Unit} {o : Outcome Err Unit} (hg : d.gor = .running) (hs : DoStep true d d') (hg' : d'.gor = .finished o) :
    d' = { d with gor := .finished o } := by
  cases hs <;> simp_all

theorem stepP_inv {f : α → List β} {dies : α → Bool} {genDies : Bool} {m m' : MR α β} (hi : ∀ j ∈ m.jobs, JobP dies m.ctx j)
    (hs : StepP f dies genDies m m') (hc : m'.crashed = false) : ∀ j ∈ m'.jobs, JobP dies m'.ctx j := by
  have repl : ∀ {l₁ l₂ : List (Job α β)} {j j' : Job α β}, m.jobs = l₁ ++ j :: l₂ → (JobP dies m.ctx j → JobP dies m.ctx j') →
      ∀ k ∈ l₁ ++ j' :: l₂, JobP dies m.ctx k := fun hsp hk =>
    forall_repl (hsp ▸ hi) (hk (hi _ (by rw [hsp]; simp)))
  cases hs with
  | genPanic _ _ _ => simp at hc
  | mapPanic l₁ l₂ j d' hcr hsp hg hw hdi hd hg' =>
    have := doStep_finish hg hd hg'
    exact repl hsp fun h => h.doStep rfl hd (by rw [this]) (fun _ e _ => by simp [hg']) (fun o ho => .inl (by rw [this] at ho; exact ho))
  | other _ h hret =>
    cases h with
    | cancel hcr hx =>
      intro k hk
      simp only [List.mem_map] at hk
      obtain ⟨j, hj, rfl⟩ := hk
      obtain ⟨⟨c0, h1⟩, h2, h3, h4⟩ := hi j hj
      exact ⟨⟨c0, h1.step (.cancel _ _ (h2.trans hx))⟩, rfl, h3, h4⟩
    | run x c hcr hp hsd =>
      intro k hk
      simp only [List.mem_append, List.mem_singleton] at hk
      rcases hk with hk | rfl
      · exact hi k hk
      · exact ⟨⟨_, .init⟩, rfl, fun _ e => by simp [Job.new, doInit], fun o ho => by simp [Job.new, doInit] at ho⟩
    | doStep l₁ l₂ j d' hcr hsp hd hctx hl hf =>
      exact repl hsp fun h => h.doStep rfl hd hctx (fun _ e hg hg' => by have := hf _ hg'; rw [hg] at this; simp at this) (fun o ho => .inl (hl o ho))
    | writeGo l₁ l₂ j v vs hcr hsp hg hw hse hx => exact repl hsp fun h => ⟨h.reach, h.ctxEq, h.noRet, h.left⟩
    | writeDone l₁ l₂ j v vs hcr hsp hg hw hse hx => exact repl hsp fun h => ⟨h.reach, h.ctxEq, h.noRet, h.left⟩
    | writeSent l₁ l₂ j v vs c hcr hsp hg hw hse hsd => exact repl hsp fun h => ⟨h.reach, h.ctxEq, h.noRet, h.left⟩
    | writePanic l₁ l₂ j v vs d' hcr hsp hg hw hse hsd hd hg' =>
      have := doStep_finish hg hd hg'
      exact repl hsp fun h => h.doStep rfl hd (by rw [this]) (fun _ e _ => by simp [hg']) (fun o ho => .inl (by rw [this] at ho; exact ho))
    | mapReturn l₁ l₂ j d' hcr hsp hg hw hd hg' =>
      have := doStep_finish hg hd hg'
      have hnd := hret l₁.length j { j with d := d' } (by simp [hsp]) (by simp) hg hg'
      exact repl hsp fun h => h.doStep rfl hd (by rw [this]) (fun hd' => by simp [hnd] at hd') (fun o ho => .inl (by rw [this] at ho; exact ho))
    | done l₁ l₂ j o hcr hsp hl hdf => exact repl hsp fun h => ⟨h.reach, h.ctxEq, h.noRet, h.left⟩
    | release l₁ l₂ j o d' c hcr hsp hl hdf hsl hd hl' =>
      have hd' : d'.gor = j.d.gor ∧ d'.ctx = j.d.ctx := by cases hd <;> simp_all
      refine repl hsp fun h => h.doStep rfl hd hd'.2 (fun _ e hg hg' => ?_) (fun o' ho' => .inr ?_)
      · rw [hd'.1, hg] at hg'; simp at hg'
      · have : o = o' := by simpa [hl'] using ho'
        subst this
        cases o with
        | err e => exact ⟨e, rfl⟩
        | panic p => simp at hc
    | _ => exact hi

theorem reachP_inv {items : List α} {f : α → List β} {dies : α → Bool} {genDies : Bool} {size : Nat} {ctx : Option Err} {m : MR α β}
    (h : ReachP items f dies genDies size ctx m) (hc : m.crashed = false) : ∀ j ∈ m.jobs, JobP dies m.ctx j := by
  induction h with
  | init => simp [start]
  | @step m m' _ hs ih =>
    have : m.crashed = false := by
      cases hs with
      | other _ h _ => cases h <;> assumption
      | mapPanic _ _ _ _ h => exact h
      | genPanic h => exact h
    exact stepP_inv (ih this) hs hc

theorem calm_ctx (d : DoSt Err Unit) (c : Option Err) : calm { d with ctx := c } = { calm d with ctx := c } := rfl

theorem calmJ_running {dies : α → Bool} {ctx : Option Err} {j : Job α β} (h : JobP dies ctx j) (hg : j.d.gor = .running) : calmJ dies j = j := by
  obtain ⟨c0, hr⟩ := h.reach
  unfold calmJ
  rw [calm_running hr (.inl hg)]
  simp

theorem calmJ_writing {dies : α → Bool} {j : Job α β} {v : β} {vs : List β} (hw : j.writes = v :: vs) : calmJ dies j = j := by
  unfold calmJ
  rw [if_neg (by simp [hw])]

/-- Without a crash, a step is also a step of the program whose `mapFunc` returns instead of panicking. -/
theorem calm_stepP {f : α → List β} {dies : α → Bool} {genDies : Bool} {m m' : MR α β} (hi : ∀ j ∈ m.jobs, JobP dies m.ctx j)
    (hs : StepP f dies genDies m m') (hc : m'.crashed = false) : Step f (calmM dies m) (calmM dies m') := by
  have split : ∀ {l₁ l₂ : List (Job α β)} {j : Job α β}, m.jobs = l₁ ++ j :: l₂ →
      (calmM dies m).jobs = l₁.map (calmJ dies) ++ calmJ dies j :: l₂.map (calmJ dies) ∧ JobP dies m.ctx j := fun hsp =>
    ⟨by simp [calmM, hsp], hi _ (by rw [hsp]; simp)⟩
  cases hs with
  | genPanic _ _ _ => simp at hc
  | mapPanic l₁ l₂ j d' hcr hsp hg hw hdi hd hg' =>
    obtain ⟨hs1, hj⟩ := split hsp
    have he := doStep_finish hg hd hg'
    have hk := calmJ_running hj hg
    obtain ⟨c0, hr⟩ := hj.reach
    have h1 := Step.mapReturn (f := f) (calmM dies m) _ _ (calmJ dies j) (calm d') hcr hs1 (by rw [hk]; exact hg) hw
      (by rw [hk]; have := calm_step hr hd; rwa [calm_running hr (.inl hg)] at this) (by simp [calm, hg', calmG, calmO])
    have h2 : ({ calmJ dies j with d := calm d' } : Job α β) = calmJ dies { j with d := d' } := by simp [calmJ, hdi, hw]
    rw [h2] at h1
    simpa [calmM] using h1
  | other _ h hret =>
    cases h with
    | cancel hcr hx =>
      have h1 := Step.cancel (f := f) (calmM dies m) hcr hx
      have h2 : (calmM dies m).jobs.map (fun j => ({ j with d := { j.d with ctx := some .ctx } } : Job α β)) =
          (m.jobs.map fun j => { j with d := { j.d with ctx := some .ctx } }).map (calmJ dies) := by
        simp only [calmM, List.map_map]
        apply List.map_congr_left
        intro j _
        simp only [Function.comp, calmJ]
        split <;> rfl
      rw [h2] at h1
      exact h1
    | handOver x xs hcr hg hp => exact .handOver (calmM dies m) x xs hcr hg hp
    | closeSource hcr hg hsc => exact .closeSource (calmM dies m) hcr hg hsc
    | selectDone hcr hp hx => exact .selectDone (calmM dies m) hcr hp hx
    | selectClosed hcr hp hx => exact .selectClosed (calmM dies m) hcr hp hx
    | add x hcr hp => exact .add (calmM dies m) x hcr hp
    | run x c hcr hp hsd =>
      have h1 := Step.run (f := f) (calmM dies m) x c hcr hp hsd
      have h2 : calmJ dies (Job.new m.ctx f x) = Job.new m.ctx f x := by
        have := calm_running (DoReach.init (hasDefer := true) (V := Unit) (ctx := m.ctx)) (.inr rfl)
        simp [calmJ, Job.new, this]
      simpa [calmM, h2] using h1
    | doStep l₁ l₂ j d' hcr hsp hd hctx hl hf =>
      obtain ⟨hs1, hj⟩ := split hsp
      obtain ⟨c0, hr⟩ := hj.reach
      have h1 := Step.doStep (f := f) (calmM dies m) _ _ (calmJ dies j) (calmJ dies { j with d := d' }).d hcr hs1
        (by simp only [calmJ]; split <;> [exact calm_step hr hd; exact hd])
        (by simp only [calmJ]; split <;> exact hctx)
        (by
          simp only [calmJ]; split
          · intro o ho
            cases hc' : d'.caller <;> simp [calm, hc', calmC] at ho
            subst ho; simp [calm, hl _ hc', calmC]
          · exact hl)
        (by
          simp only [calmJ]; split
          · intro o ho
            cases hc' : d'.gor <;> simp [calm, hc', calmG] at ho
            subst ho; simp [calm, hf _ hc', calmG]
          · exact hf)
      have h2 : ({ calmJ dies j with d := (calmJ dies { j with d := d' }).d } : Job α β) = calmJ dies { j with d := d' } := rfl
      rw [h2] at h1
      simpa [calmM] using h1
    | writeGo l₁ l₂ j v vs hcr hsp hg hw hse hx =>
      obtain ⟨hs1, hj⟩ := split hsp
      have hk := calmJ_running hj hg
      rw [hk] at hs1
      have h1 := Step.writeGo (f := f) (calmM dies m) _ _ j v vs hcr hs1 hg hw hse hx
      have h2 : calmJ dies { j with sending := true } = { j with sending := true } := calmJ_writing hw
      rw [← h2] at h1
      simpa [calmM] using h1
    | writeDone l₁ l₂ j v vs hcr hsp hg hw hse hx =>
      obtain ⟨hs1, hj⟩ := split hsp
      have hk := calmJ_running hj hg
      rw [hk] at hs1
      have h1 := Step.writeDone (f := f) (calmM dies m) _ _ j v vs hcr hs1 hg hw hse hx
      have h2 : calmJ dies { j with writes := vs, results := j.results ++ [false] } = { j with writes := vs, results := j.results ++ [false] } :=
        calmJ_running ⟨hj.reach, hj.ctxEq, hj.noRet, hj.left⟩ hg
      rw [← h2] at h1
      simpa [calmM] using h1
    | writeSent l₁ l₂ j v vs c hcr hsp hg hw hse hsd =>
      obtain ⟨hs1, hj⟩ := split hsp
      have hk := calmJ_running hj hg
      rw [hk] at hs1
      have h1 := Step.writeSent (f := f) (calmM dies m) _ _ j v vs c hcr hs1 hg hw hse hsd
      have h2 : calmJ dies { j with writes := vs, sending := false, results := j.results ++ [true] } =
          { j with writes := vs, sending := false, results := j.results ++ [true] } :=
        calmJ_running ⟨hj.reach, hj.ctxEq, hj.noRet, hj.left⟩ hg
      rw [← h2] at h1
      simpa [calmM] using h1
    | writePanic l₁ l₂ j v vs d' hcr hsp hg hw hse hsd hd hg' =>
      obtain ⟨hs1, hj⟩ := split hsp
      rw [calmJ_writing hw] at hs1
      have h1 := Step.writePanic (f := f) (calmM dies m) _ _ j v vs d' hcr hs1 hg hw hse hsd hd hg'
      have h2 : calmJ dies { j with d := d' } = { j with d := d' } := calmJ_writing hw
      rw [← h2] at h1
      simpa [calmM] using h1
    | mapReturn l₁ l₂ j d' hcr hsp hg hw hd hg' =>
      obtain ⟨hs1, hj⟩ := split hsp
      have hnd := hret l₁.length j { j with d := d' } (by simp [hsp]) (by simp) hg hg'
      rw [calmJ_running hj hg] at hs1
      have h1 := Step.mapReturn (f := f) (calmM dies m) _ _ j d' hcr hs1 hg hw hd hg'
      have h2 : calmJ dies { j with d := d' } = { j with d := d' } := by simp [calmJ, hnd]
      rw [← h2] at h1
      simpa [calmM] using h1
    | done l₁ l₂ j o hcr hsp hl hdf =>
      obtain ⟨hs1, hj⟩ := split hsp
      have h1 := Step.done (f := f) (calmM dies m) _ _ (calmJ dies j) (if dies j.item = true ∧ j.writes = [] then calmOut o else o) hcr hs1
        (by simp only [calmJ]; split <;> simp [calm, hl, calmC]) hdf
      have h2 : ({ calmJ dies j with deferred := true } : Job α β) = calmJ dies { j with deferred := true } := rfl
      rw [h2] at h1
      simp only [calmM, List.map_append, List.map_cons] at h1 ⊢
      exact h1
    | release l₁ l₂ j o d' c hcr hsp hl hdf hsl hd hl' =>
      obtain ⟨hs1, hj⟩ := split hsp
      obtain ⟨c0, hr⟩ := hj.reach
      cases o with
      | panic p => simp at hc
      | err e =>
        have h1 := Step.release (f := f) (calmM dies m) _ _ (calmJ dies j) (.err e) (calmJ dies { j with d := d' }).d c hcr hs1
          (by simp only [calmJ]; split <;> simp [calm, hl, calmC, calmOut]) hdf hsl
          (by simp only [calmJ]; split <;> [exact calm_step hr hd; exact hd])
          (by simp only [calmJ]; split <;> simp [calm, hl', calmC, calmOut])
        have h2 : ({ calmJ dies j with d := (calmJ dies { j with d := d' }).d } : Job α β) = calmJ dies { j with d := d' } := rfl
        rw [h2] at h1
        simpa [calmM] using h1
    | waited hcr hp hw => exact .waited (calmM dies m) hcr hp hw
    | close hcr hp => exact .close (calmM dies m) hcr hp
    | consume v c hcr hr => exact .consume (calmM dies m) v c hcr hr
    | consumeEnd hcr hd hr => exact .consumeEnd (calmM dies m) hcr hd hr

theorem stepP_alive {f : α → List β} {dies : α → Bool} {genDies : Bool} {m m' : MR α β} (hs : StepP f dies genDies m m') : m.crashed = false := by
  cases hs with
  | other _ h _ => cases h <;> assumption
  | mapPanic _ _ _ _ h => exact h
  | genPanic h => exact h

theorem calm_reach {items : List α} {f : α → List β} {dies : α → Bool} {genDies : Bool} {size : Nat} {ctx : Option Err} {m : MR α β}
    (h : ReachP items f dies genDies size ctx m) (hc : m.crashed = false) : Reach items f size ctx (calmM dies m) := by
  induction h with
  | init => exact .init
  | step h hs ih => exact .step (ih (stepP_alive hs)) (calm_stepP (reachP_inv h (stepP_alive hs)) hs hc)

theorem append_of_map {γ δ : Type} {g : γ → δ} {l : List γ} {l₁ l₂ : List δ} {b : δ} (h : l.map g = l₁ ++ b :: l₂) :
    ∃ k₁ a k₂, l = k₁ ++ a :: k₂ ∧ g a = b := by
  obtain ⟨k₁, k, rfl, rfl, hk⟩ := List.map_eq_append_iff.mp h
  obtain ⟨a, k₂, rfl, rfl, rfl⟩ := List.map_eq_cons_iff.mp hk
  exact ⟨k₁, a, k₂, rfl, rfl⟩

/-- The steps of `Do` inside a job, back. -/
theorem uncalm {c0 : Option Err} {d d1 : DoSt Err Unit} (h : DoReach true c0 d) (hx : d.ctx = none) (hs : DoStep true (calm d) d1)
    (hctx : d1.ctx = none) (hl : ∀ o, d1.caller = .left o → (calm d).caller = .left o)
    (hf : ∀ o, d1.gor = .finished o → (calm d).gor = .finished o) :
    ∃ d', DoStep true d d' ∧ d'.ctx = d.ctx ∧ (∀ o, d'.caller = .left o → d.caller = .left o) ∧ (∀ o, d'.gor = .finished o → d.gor = .finished o) := by
  have hi := do_inv h
  cases hs with
  | cancel e hc => simp at hctx
  | entryDone e hc hx' => simp [calm, hx] at hx'
  | entryGo hc hx' =>
    have : d.caller = .entry := by cases hd : d.caller <;> simp_all [calm, calmC]
    exact ⟨_, .entryGo d this hx, rfl, by simp, by simp⟩
  | spawn hc =>
    have : d.caller = .spawn := by cases hd : d.caller <;> simp_all [calm, calmC]
    exact ⟨_, .spawn d this, rfl, by simp, by simp⟩
  | finish o hg => have := hf o rfl; rw [hg] at this; simp at this
  | deliverRet e c hg hsd =>
    cases hd : d.gor with
    | finished o =>
      obtain ⟨b1, b2⟩ := hi.pending o (.inr hd)
      cases o with
      | returned e => exact ⟨_, .deliverRet d e _ hd (by simp [Chan.send, hi.capD.1, hi.capD.2, b1]; rfl), rfl, by simp, by simp⟩
      | panicked p => exact ⟨_, .deliverPanic d p _ hd (by simp [Chan.send, hi.capP.1, hi.capP.2, b2]; rfl), rfl, by simp, by simp⟩
      | exited => exact ⟨_, .deliverNone d hd, rfl, by simp, by simp⟩
    | _ => simp [calm, hd, calmG] at hg
  | deliverPanic p c hg hsd => cases hd : d.gor <;> simp [calm, hd, calmG, calmO] at hg; split at hg <;> simp_all
  | deliverNone hg =>
    have : d.gor = .finished .exited := by
      cases hd : d.gor with
      | finished o => cases o <;> simp_all [calm, calmG, calmO]
      | _ => simp [calm, hd, calmG] at hg
    exact ⟨_, .deliverNone d this, rfl, by simp, by simp⟩
  | recvPanic p c hc hr => have := (recv_got hr).1; simp [calm] at this
  | recvDone e c hc hr =>
    have hw : d.caller = .wait := by cases hd : d.caller <;> simp_all [calm, calmC]
    have hb := (recv_got hr).1
    cases hd : d.doneChan.buf with
    | cons e' l => exact ⟨_, .recvDone d e' _ hw (by simp [Chan.recv, hd]; rfl), rfl, by simp, by simp⟩
    | nil =>
      cases hp : d.panicChan.buf with
      | cons p l => exact ⟨_, .recvPanic d p _ hw (by simp [Chan.recv, hp]; rfl), rfl, by simp, by simp⟩
      | nil => simp [calm, hd, hp] at hb
  | recvCtx e hc hx' => simp [calm, hx] at hx'
  | leave o hc => have := hl o rfl; rw [hc] at this; simp at this

/-- A step of the program whose `mapFunc` returns is also possible, in some form, where it panics. -/
theorem uncalm_step {f : α → List β} {dies : α → Bool} {genDies : Bool} {m m1 : MR α β} (hi : ∀ j ∈ m.jobs, JobP dies m.ctx j)
    (hcr : m.crashed = false) (hx : m.ctx = none) (hs : Step f (calmM dies m) m1) (hx1 : m1.ctx = none) :
    ∃ m', StepP f dies genDies m m' ∧ m'.ctx = none := by
  have quiet : ∀ {m' : MR α β}, m'.jobs = m.jobs → ∀ (i : Nat) (j j' : Job α β), m.jobs[i]? = some j → m'.jobs[i]? = some j' →
      j.d.gor = .running → j'.d.gor = .finished (.returned .nil) → dies j.item = false := by
    intro m' h i j j' h1 h2 h3 h4
    rw [h, h1] at h2
    simp only [Option.some.injEq] at h2
    subst h2
    rw [h3] at h4; simp at h4
  have one : ∀ {m' : MR α β} {l₁ l₂ : List (Job α β)} {j j' : Job α β}, m.jobs = l₁ ++ j :: l₂ → m'.jobs = l₁ ++ j' :: l₂ →
      (j.d.gor = .running → j'.d.gor = .finished (.returned .nil) → dies j.item = false) → ∀ (i : Nat) (j j' : Job α β), m.jobs[i]? = some j →
      m'.jobs[i]? = some j' → j.d.gor = .running → j'.d.gor = .finished (.returned .nil) → dies j.item = false := by
    intro m' l₁ l₂ j j' e1 e2 hk i k k' h1 h2 h3 h4
    rw [e1] at h1
    rw [e2] at h2
    by_cases hlt : i < l₁.length
    · rw [List.getElem?_append_left hlt] at h1 h2
      rw [h1] at h2; simp only [Option.some.injEq] at h2; subst h2
      rw [h3] at h4; simp at h4
    · rw [List.getElem?_append_right (by omega)] at h1 h2
      cases hn : i - l₁.length with
      | zero =>
        rw [hn] at h1 h2
        simp only [List.getElem?_cons_zero, Option.some.injEq] at h1 h2
        subst h1; subst h2
        exact hk h3 h4
      | succ n =>
        rw [hn] at h1 h2
        simp only [List.getElem?_cons_succ] at h1 h2
        rw [h1] at h2; simp only [Option.some.injEq] at h2; subst h2
        rw [h3] at h4; simp at h4
  have same : ∀ {k : Job α β} {v : β} {vs : List β}, (calmJ dies k).writes = v :: vs → calmJ dies k = k := fun h => calmJ_writing h
  have leaving : ∀ {k : Job α β} {o : Out Err Unit}, (calmJ dies k).d.caller = .leave o → ∃ o', k.d.caller = .leave o' := by
    intro k o h
    simp only [calmJ] at h
    split at h
    · cases hk : k.d.caller <;> simp [calm, hk, calmC] at h
      exact ⟨_, rfl⟩
    · exact ⟨o, h⟩
  have runs : ∀ {k : Job α β}, (calmJ dies k).d.gor = .running → k.d.gor = .running := by
    intro k h
    simp only [calmJ] at h
    split at h
    · cases hk : k.d.gor <;> simp [calm, hk, calmG] at h
      rfl
    · exact h
  cases hs with
  | cancel _ _ => simp at hx1
  | handOver x xs _ hg hp => exact ⟨_, .other _ _ (.handOver m x xs hcr hg hp) (quiet rfl), hx⟩
  | closeSource _ hg hsc => exact ⟨_, .other _ _ (.closeSource m hcr hg hsc) (quiet rfl), hx⟩
  | selectDone _ hp hx' => exact absurd hx hx'
  | selectClosed _ hp hsc => exact ⟨_, .other _ _ (.selectClosed m hcr hp hsc) (quiet rfl), hx⟩
  | add x _ hp => exact ⟨_, .other _ _ (.add m x hcr hp) (quiet rfl), hx⟩
  | run x c _ hp hsd =>
    refine ⟨_, .other _ _ (.run m x c hcr hp hsd) ?_, hx⟩
    intro i j j' h1 h2 h3 h4
    have hlt : i < m.jobs.length := by rw [List.getElem?_eq_some_iff] at h1; exact h1.1
    simp only [List.getElem?_append_left hlt, h1, Option.some.injEq] at h2
    subst h2
    rw [h3] at h4; simp at h4
  | doStep l₁ l₂ j d1 _ hsp hd hctx hl hf =>
    obtain ⟨k₁, k, k₂, hk, rfl⟩ := append_of_map hsp
    have hj := hi k (by rw [hk]; simp)
    obtain ⟨c0, hr⟩ := hj.reach
    have hkx : k.d.ctx = none := hj.ctxEq.trans hx
    have : ∃ d', DoStep true k.d d' ∧ d'.ctx = k.d.ctx ∧ (∀ o, d'.caller = .left o → k.d.caller = .left o) ∧
        (∀ o, d'.gor = .finished o → k.d.gor = .finished o) := by
      simp only [calmJ] at hd hctx hl hf
      split at hd
      · rename_i hif
        rw [if_pos hif] at hctx hl hf
        exact uncalm hr hkx hd (hctx.trans hkx) hl hf
      · rename_i hif
        rw [if_neg hif] at hctx hl hf
        exact ⟨d1, hd, hctx, hl, hf⟩
    obtain ⟨d', hd', hctx', hl', hf'⟩ := this
    exact ⟨_, .other _ _ (.doStep m k₁ k₂ k d' hcr hk hd' hctx' hl' hf')
      (one hk rfl fun hg hg' => by have := hf' _ hg'; rw [hg] at this; simp at this), hx⟩
  | writeGo l₁ l₂ j v vs _ hsp hg hw hse _ =>
    obtain ⟨k₁, k, k₂, hk, rfl⟩ := append_of_map hsp
    rw [same hw] at hg hw hse
    exact ⟨_, .other _ _ (.writeGo m k₁ k₂ k v vs hcr hk hg hw hse hx) (one hk rfl fun _ hg' => by simp [hg] at hg'), hx⟩
  | writeDone l₁ l₂ j v vs _ hsp hg hw hse hx' => exact absurd hx hx'
  | writeSent l₁ l₂ j v vs c _ hsp hg hw hse hsd =>
    obtain ⟨k₁, k, k₂, hk, rfl⟩ := append_of_map hsp
    rw [same hw] at hg hw hse
    exact ⟨_, .other _ _ (.writeSent m k₁ k₂ k v vs c hcr hk hg hw hse hsd) (one hk rfl fun _ hg' => by simp [hg] at hg'), hx⟩
  | writePanic l₁ l₂ j v vs d' _ hsp hg hw hse hsd hd hg' =>
    obtain ⟨k₁, k, k₂, hk, rfl⟩ := append_of_map hsp
    rw [same hw] at hg hw hse hd
    exact ⟨_, .other _ _ (.writePanic m k₁ k₂ k v vs d' hcr hk hg hw hse hsd hd hg') (one hk rfl fun _ hg'' => by simp [hg'] at hg''), hx⟩
  | mapReturn l₁ l₂ j d' _ hsp hg hw hd hg' =>
    obtain ⟨k₁, k, k₂, hk, rfl⟩ := append_of_map hsp
    have hg := runs hg
    cases hdi : dies k.item with
    | true => exact ⟨_, .mapPanic m k₁ k₂ k _ hcr hk hg hw hdi (.finish _ (.panicked ()) hg) rfl, hx⟩
    | false =>
      exact ⟨_, .other _ _ (.mapReturn m k₁ k₂ k _ hcr hk hg hw (.finish _ (.returned .nil) hg) rfl) (one hk rfl fun _ _ => hdi), hx⟩
  | done l₁ l₂ j o _ hsp hl hdf =>
    obtain ⟨k₁, k, k₂, hk, rfl⟩ := append_of_map hsp
    obtain ⟨o', ho'⟩ := leaving hl
    exact ⟨_, .other _ _ (.done m k₁ k₂ k o' hcr hk ho' hdf) (one hk rfl fun hg hg' => by simp [hg] at hg'), hx⟩
  | release l₁ l₂ j o d' c _ hsp hl hdf hsl hd hl' =>
    obtain ⟨k₁, k, k₂, hk, rfl⟩ := append_of_map hsp
    obtain ⟨o', ho'⟩ := leaving hl
    exact ⟨_, .other _ _ (.release m k₁ k₂ k o' _ c hcr hk ho' hdf hsl (.leave _ o' ho') rfl) (one hk rfl fun hg hg' => by simp [hg] at hg'), hx⟩
  | waited _ hp hw => exact ⟨_, .other _ _ (.waited m hcr hp hw) (quiet rfl), hx⟩
  | close _ hp => exact ⟨_, .other _ _ (.close m hcr hp) (quiet rfl), hx⟩
  | consume v c _ hr => exact ⟨_, .other _ _ (.consume m v c hcr hr) (quiet rfl), hx⟩
  | consumeEnd _ hd hr => exact ⟨_, .other _ _ (.consumeEnd m hcr hd hr) (quiet rfl), hx⟩

/-! ## C112 -/

/-- One item, for which `mapFunc` panics before it has written anything; the consumer has seen the end of the output. -/
theorem demoDies : ∃ m : MR Nat Nat, ReachP [1] (fun _ => []) (fun _ => true) false 1 none m ∧ m.ctx = none ∧ m.crashed = false ∧ m.drained = true ∧
    m.out = [] := by
  have quiet : ∀ {m m' : MR Nat Nat}, (∀ j ∈ m.jobs, j.d.gor ≠ .running) → ∀ (i : Nat) (j j' : Job Nat Nat), m.jobs[i]? = some j →
      m'.jobs[i]? = some j' → j.d.gor = .running → j'.d.gor = .finished (.returned .nil) → (fun _ : Nat => true) j.item = false := by
    intro m m' h i j j' h1 _ h2; exact absurd h2 (h j (List.mem_of_getElem? h1))
  have h0 : ReachP [1] (fun _ : Nat => ([] : List Nat)) (fun _ => true) false 1 none (start [1] 1 none) := .init
  have h1 := h0.step (.other _ _ (.handOver _ 1 [] rfl rfl rfl) (quiet (by simp [start])))
  have h2 := h1.step (.other _ _ (.add _ 1 rfl rfl) (quiet (by simp [start])))
  have h3 := h2.step (.other _ _ (.run _ 1 _ rfl rfl rfl) (quiet (by simp [start])))
  have h4 := h3.step (.other _ _ (.doStep _ [] [] _ _ rfl rfl (.entryGo _ rfl rfl) rfl (by simp) (by simp)) (quiet (by simp [start, Job.new, doInit])))
  have h5 := h4.step (.other _ _ (.doStep _ [] [] _ _ rfl rfl (.spawn _ rfl) rfl (by simp) (by simp)) (quiet (by simp [Job.new, doInit])))
  have h6 := h5.step (.mapPanic _ [] [] _ _ rfl rfl rfl rfl rfl (.finish _ (.panicked ()) rfl) rfl)
  have h7 := h6.step (.other _ _ (.doStep _ [] [] _ _ rfl rfl (.deliverPanic _ () _ rfl rfl) rfl (by simp) (by simp)) (quiet (by simp)))
  have h8 := h7.step (.other _ _ (.doStep _ [] [] _ _ rfl rfl (.recvPanic _ () _ rfl rfl) rfl (by simp) (by simp)) (quiet (by simp)))
  have h9 := h8.step (.other _ _ (.done _ [] [] _ (.panic ()) rfl rfl rfl rfl) (quiet (by simp)))
  have h10 := h9.step (.other _ _ (.closeSource _ rfl rfl rfl) (quiet (by simp)))
  have h11 := h10.step (.other _ _ (.selectClosed _ rfl rfl rfl) (quiet (by simp)))
  have h12 := h11.step (.other _ _ (.waited _ rfl rfl rfl) (quiet (by simp)))
  have h13 := h12.step (.other _ _ (.close _ rfl rfl) (quiet (by simp)))
  have h14 := h13.step (.other _ _ (.consumeEnd _ rfl rfl rfl) (quiet (by simp)))
  exact ⟨_, h14, rfl, rfl, rfl, rfl⟩

/-- The panic ends the program. -/
theorem demoCrash : ∃ m : MR Nat Nat, ReachP [1] (fun _ => []) (fun _ => true) false 1 none m ∧ m.crashed = true := by
  have quiet : ∀ {m m' : MR Nat Nat}, (∀ j ∈ m.jobs, j.d.gor ≠ .running) → ∀ (i : Nat) (j j' : Job Nat Nat), m.jobs[i]? = some j →
      m'.jobs[i]? = some j' → j.d.gor = .running → j'.d.gor = .finished (.returned .nil) → (fun _ : Nat => true) j.item = false := by
    intro m m' h i j j' h1 _ h2; exact absurd h2 (h j (List.mem_of_getElem? h1))
  have h0 : ReachP [1] (fun _ : Nat => ([] : List Nat)) (fun _ => true) false 1 none (start [1] 1 none) := .init
  have h1 := h0.step (.other _ _ (.handOver _ 1 [] rfl rfl rfl) (quiet (by simp [start])))
  have h2 := h1.step (.other _ _ (.add _ 1 rfl rfl) (quiet (by simp [start])))
  have h3 := h2.step (.other _ _ (.run _ 1 _ rfl rfl rfl) (quiet (by simp [start])))
  have h4 := h3.step (.other _ _ (.doStep _ [] [] _ _ rfl rfl (.entryGo _ rfl rfl) rfl (by simp) (by simp)) (quiet (by simp [start, Job.new, doInit])))
  have h5 := h4.step (.other _ _ (.doStep _ [] [] _ _ rfl rfl (.spawn _ rfl) rfl (by simp) (by simp)) (quiet (by simp [Job.new, doInit])))
  have h6 := h5.step (.mapPanic _ [] [] _ _ rfl rfl rfl rfl rfl (.finish _ (.panicked ()) rfl) rfl)
  have h7 := h6.step (.other _ _ (.doStep _ [] [] _ _ rfl rfl (.deliverPanic _ () _ rfl rfl) rfl (by simp) (by simp)) (quiet (by simp)))
  have h8 := h7.step (.other _ _ (.doStep _ [] [] _ _ rfl rfl (.recvPanic _ () _ rfl rfl) rfl (by simp) (by simp)) (quiet (by simp)))
  have h9 := h8.step (.other _ _ (.done _ [] [] _ (.panic ()) rfl rfl rfl rfl) (quiet (by simp)))
  have h10 := h9.step (.other _ _ (.release _ [] [] _ (.panic ()) _ _ rfl rfl rfl rfl rfl (.leave _ _ rfl) rfl) (quiet (by simp)))
  exact ⟨_, h10, rfl⟩

/-- C112 is false: the consumer can see the end of the output, as after a complete mapping, although `mapFunc` has panicked for an item and has
written nothing for it; the panic ends the program only later. -/
theorem C112_end_refuted : ∃ m : MR Nat Nat, ReachP [1] (fun _ => []) (fun _ => true) false 1 none m ∧ m.ctx = none ∧ m.crashed = false ∧
    m.drained = true ∧ m.out = [] := demoDies

theorem stuck_of_done {f : Nat → List Nat} {dies : Nat → Bool} {m : MR Nat Nat} {k : Job Nat Nat} (h1 : m.ctx = some .ctx) (h2 : m.gen = [])
    (h3 : m.srcClosed = true) (h4 : m.pc = .ended) (h5 : m.drained = true) (h6 : m.collector.buf = []) (h7 : m.jobs = [k])
    (h8 : ∃ o, k.d.caller = .left o) (h9 : ∃ o, k.d.gor = .ended o) (m' : MR Nat Nat) : ¬ StepP f dies false m m' := by
  obtain ⟨o1, h8⟩ := h8
  obtain ⟨o2, h9⟩ := h9
  have one : ∀ {l₁ l₂ : List (Job Nat Nat)} {j : Job Nat Nat}, m.jobs = l₁ ++ j :: l₂ → j = k := by
    intro l₁ l₂ j h
    rw [h7] at h
    cases l₁ with
    | nil => simp at h; exact h.1.symm
    | cons _ _ => simp at h
  intro hs
  cases hs with
  | genPanic _ h _ => simp at h
  | mapPanic _ _ _ _ _ h hg => have := one h; subst this; simp [h9] at hg
  | other _ h _ =>
    cases h with
    | cancel _ hx => simp [h1] at hx
    | handOver _ _ _ hg => simp [h2] at hg
    | closeSource _ _ hs => simp [h3] at hs
    | selectDone _ hp => simp [h4] at hp
    | selectClosed _ hp => simp [h4] at hp
    | add _ _ hp => simp [h4] at hp
    | run _ _ _ hp => simp [h4] at hp
    | doStep _ _ j d' _ hj hd hc hl hf => have := one hj; subst this; cases hd <;> simp_all
    | writeGo _ _ _ _ _ _ hj hg => have := one hj; subst this; simp [h9] at hg
    | writeDone _ _ _ _ _ _ hj hg => have := one hj; subst this; simp [h9] at hg
    | writeSent _ _ _ _ _ _ _ hj hg => have := one hj; subst this; simp [h9] at hg
    | writePanic _ _ _ _ _ _ _ hj hg => have := one hj; subst this; simp [h9] at hg
    | mapReturn _ _ _ _ _ hj hg => have := one hj; subst this; simp [h9] at hg
    | done _ _ _ _ _ hj hl => have := one hj; subst this; simp [h8] at hl
    | release _ _ _ _ _ _ _ hj hl => have := one hj; subst this; simp [h8] at hl
    | waited _ hp => simp [h4] at hp
    | close _ hp => simp [h4] at hp
    | consume v c _ hr => have := (recv_got hr).1; simp [h6] at this
    | consumeEnd _ hd => simp [h5] at hd

/-- C112 is false: a panic of `mapFunc` is lost if the context has been cancelled meanwhile. The output ends, nothing can happen any more, and
the program has not been ended by the panic. -/
theorem C112_lost_refuted : ∃ m : MR Nat Nat, ReachP [1] (fun _ => []) (fun _ => true) false 1 none m ∧ m.crashed = false ∧ m.drained = true ∧
    (∃ j ∈ m.jobs, j.d.gor = .ended (.panicked ())) ∧ ∀ m', ¬ StepP (fun _ => []) (fun _ => true) false m m' := by
  have quiet : ∀ {m m' : MR Nat Nat}, (∀ j ∈ m.jobs, j.d.gor ≠ .running) → ∀ (i : Nat) (j j' : Job Nat Nat), m.jobs[i]? = some j →
      m'.jobs[i]? = some j' → j.d.gor = .running → j'.d.gor = .finished (.returned .nil) → (fun _ : Nat => true) j.item = false := by
    intro m m' h i j j' h1 _ h2; exact absurd h2 (h j (List.mem_of_getElem? h1))
  have h0 : ReachP [1] (fun _ : Nat => ([] : List Nat)) (fun _ => true) false 1 none (start [1] 1 none) := .init
  have h1 := h0.step (.other _ _ (.handOver _ 1 [] rfl rfl rfl) (quiet (by simp [start])))
  have h2 := h1.step (.other _ _ (.add _ 1 rfl rfl) (quiet (by simp [start])))
  have h3 := h2.step (.other _ _ (.run _ 1 _ rfl rfl rfl) (quiet (by simp [start])))
  have h4 := h3.step (.other _ _ (.doStep _ [] [] _ _ rfl rfl (.entryGo _ rfl rfl) rfl (by simp) (by simp)) (quiet (by simp [start, Job.new, doInit])))
  have h5 := h4.step (.other _ _ (.doStep _ [] [] _ _ rfl rfl (.spawn _ rfl) rfl (by simp) (by simp)) (quiet (by simp [Job.new, doInit])))
  have h6 := h5.step (.mapPanic _ [] [] _ _ rfl rfl rfl rfl rfl (.finish _ (.panicked ()) rfl) rfl)
  have h6' := h6.step (.other _ _ (.cancel _ rfl rfl) (quiet (by simp)))
  have h7 := h6'.step (.other _ _ (.doStep _ [] [] _ _ rfl rfl (.deliverPanic _ () _ rfl rfl) rfl (by simp) (by simp)) (quiet (by simp)))
  have h8 := h7.step (.other _ _ (.doStep _ [] [] _ _ rfl rfl (.recvCtx _ .ctx rfl rfl) rfl (by simp) (by simp)) (quiet (by simp)))
  have h9 := h8.step (.other _ _ (.done _ [] [] _ (.err .ctx) rfl rfl rfl rfl) (quiet (by simp)))
  have h9' := h9.step (.other _ _ (.release _ [] [] _ (.err .ctx) _ _ rfl rfl rfl rfl rfl (.leave _ _ rfl) rfl) (quiet (by simp)))
  have h10 := h9'.step (.other _ _ (.closeSource _ rfl rfl rfl) (quiet (by simp)))
  have h11 := h10.step (.other _ _ (.selectClosed _ rfl rfl rfl) (quiet (by simp)))
  have h12 := h11.step (.other _ _ (.waited _ rfl rfl rfl) (quiet (by simp)))
  have h13 := h12.step (.other _ _ (.close _ rfl rfl) (quiet (by simp)))
  have h14 := h13.step (.other _ _ (.consumeEnd _ rfl rfl rfl) (quiet (by simp)))
  refine ⟨_, h14, rfl, rfl, ⟨_, List.Mem.head _, rfl⟩, ?_⟩
  exact stuck_of_done (k := ⟨1, ⟨some .ctx, Chan.make 1, ⟨[()], 1, false⟩, .left (.err .ctx), .ended (.panicked ()), 1, true⟩, true, [], false, []⟩)
    rfl rfl rfl rfl rfl rfl rfl ⟨_, rfl⟩ ⟨_, rfl⟩

/-- C112: whatever panics, the consumer never receives anything else than values written by `mapFunc`, each once; and if it sees the end of the
output without cancellation, it has received all that was written, also by the calls that panicked. -/
theorem C112_output {items : List α} {f : α → List β} {dies : α → Bool} {genDies : Bool} {size : Nat} {ctx : Option Err} {m : MR α β}
    (h : ReachP items f dies genDies size ctx m) (hc : m.crashed = false) :
    m.out.Subperm (items.flatMap f) ∧ (m.ctx = none → m.drained = true → m.out.Perm (items.flatMap f)) :=
  ⟨C15_no_duplicates (m := calmM dies m) (calm_reach h hc), fun hx hd => C15_multiset (m := calmM dies m) (calm_reach h hc) hx hd⟩

example : ∃ m : MR Nat Nat, ReachP [1] (fun _ => []) (fun _ => true) false 1 none m ∧ m.crashed = false ∧ m.ctx = none ∧ m.drained = true :=
  demoDies.imp fun _ h => ⟨h.1, h.2.2.1, h.2.1, h.2.2.2.1⟩

/-- C112: only a panic of one of the functions ends the program. -/
theorem C112_only {items : List α} {f : α → List β} {dies : α → Bool} {genDies : Bool} {size : Nat} {ctx : Option Err} {m : MR α β}
    (h : ReachP items f dies genDies size ctx m) (hc : m.crashed = true) : genDies = true ∨ ∃ x ∈ items, dies x = true := by
  cases h with
  | init => simp [start] at hc
  | @step m0 _ h hs =>
    have hcr := stepP_alive hs
    have hi := inv_reach (calm_reach h hcr)
    have hp := reachP_inv h hcr
    cases hs with
    | genPanic _ hg _ => exact .inl hg
    | mapPanic _ _ _ _ hcr' => simp [hcr] at hc
    | other _ hs _ =>
      cases hs with
      | done l₁ l₂ j o _ hsp hl hdf =>
        have h1 := hi.wg
        have h2 : 0 < (calmM dies m0).jobs.countP notDeferred := by
          rw [List.countP_pos_iff]
          exact ⟨calmJ dies j, by simp [calmM, hsp], by simp [notDeferred, calmJ, hdf]⟩
        have h3 : m0.wg ≤ 0 := by simpa using hc
        have h4 : m0.wg = ((calmM dies m0).jobs.countP notDeferred : Int) + ((calmM dies m0).pc.running : Int) := h1
        omega
      | release l₁ l₂ j o d' c _ hsp hl hdf hsl hd hl' =>
        cases o with
        | err e => simp at hc
        | panic p =>
          have hjm : j ∈ m0.jobs := by rw [hsp]; simp
          have hji := hi.jobs (calmJ dies j) (by simp only [calmM, List.mem_map]; exact ⟨j, hjm, rfl⟩)
          refine .inr ⟨j.item, (hi.started j.item).2 (.inl ?_), ?_⟩
          · simp only [calmM, List.map_map, List.mem_map]; exact ⟨j, hjm, rfl⟩
          · cases hdi : dies j.item with
            | true => rfl
            | false =>
              have he : calmJ dies j = j := by simp [calmJ, hdi]
              rw [he] at hji
              obtain ⟨c0, hr⟩ := hji.reach
              rcases (do_inv hr).out _ (.inl hl) with ⟨e, h1, _⟩ | ⟨p', _, hg⟩
              · simp at h1
              · obtain ⟨_, e, h2⟩ := hji.panicked (.inr hg)
                rw [hl] at h2; simp at h2
      | close _ hp' =>
        have h1 : m0.collector.closed = (match m0.pc with | .ended => true | _ => false) := hi.closed
        rw [hp'] at h1
        have h2 : m0.collector.closed = true := hc
        rw [h1] at h2; simp at h2
      | _ => simp [hcr] at hc

example : ∃ m : MR Nat Nat, ReachP [1] (fun _ => []) (fun _ => true) false 1 none m ∧ m.crashed = true := demoCrash

/-- Executions with their number of steps. -/
inductive RunP (f : α → List β) (dies : α → Bool) (genDies : Bool) : Nat → MR α β → MR α β → Prop where
  | nil (m : MR α β) : RunP f dies genDies 0 m m
  | snoc {n : Nat} {m m' m'' : MR α β} : RunP f dies genDies n m m' → StepP f dies genDies m' m'' → RunP f dies genDies (n + 1) m m''

theorem RunP.reach {items : List α} {f : α → List β} {dies : α → Bool} {genDies : Bool} {size : Nat} {ctx : Option Err} {n : Nat} {m : MR α β}
    (h : RunP f dies genDies n (start items size ctx) m) : ReachP items f dies genDies size ctx m := by
  generalize hs : (start items size ctx : MR α β) = s at h
  induction h with
  | nil => subst hs; exact .init
  | snoc _ h ih => exact (ih hs).step h

/-- C112: a panic is not lost without cancellation: if a function panics for some item, or the generator does, then every execution ends, and as
long as the panic has not ended the program there is a next step without cancellation. The worker size is at least 1 and the consumer keeps
receiving. -/
theorem C112_crash_partial {items : List α} {f : α → List β} {dies : α → Bool} {genDies : Bool} {size : Nat} (hsz : 1 ≤ size) {ctx : Option Err}
    (hx : genDies = true ∨ ∃ x ∈ items, dies x = true) {n : Nat} {m : MR α β} (h : RunP f dies genDies n (start items size ctx) m) :
    n ≤ 7 + (items.map fun x => 12 + 3 * (f x).length).sum ∧
      (m.ctx = none → m.crashed = false → ∃ m', StepP f dies genDies m m' ∧ m'.ctx = none) := by
  constructor
  · have key : n + (if m.crashed then 0 else weight f (calmM dies m) + 1) ≤ weight f (start items size ctx : MR α β) + 1 := by
      have hr := RunP.reach h
      generalize hs0 : (start items size ctx : MR α β) = s at h
      induction h with
      | nil => subst hs0; simp [start, calmM]
      | @snoc n m0 m' m'' h0 hs ih =>
        have hrp : ReachP items f dies genDies size ctx m' := by subst hs0; exact RunP.reach h0
        have hcr := stepP_alive hs
        have ih := ih hrp hs0
        rw [hcr] at ih
        cases hcr' : m''.crashed with
        | true => simp at ih ⊢; omega
        | false =>
          have hw := step_weight (inv_reach (calm_reach hrp hcr)) (calm_stepP (reachP_inv hrp hcr) hs hcr')
          simp at ih ⊢; omega
    have h2 : weight f (start items size ctx : MR α β) ≤ 6 + (items.map fun x => 12 + 3 * (f x).length).sum := by
      cases ctx <;> simp [weight, start, pcW, Chan.make] <;> omega
    omega
  · intro hctx hcr
    have hr := RunP.reach h
    have hp := reachP_inv hr hcr
    have hcalm := calm_reach hr hcr
    cases hd : m.drained with
    | false =>
      obtain ⟨m1, hs, h1⟩ := C17_progress hsz hcalm (show (calmM dies m).drained = false from hd)
      exact uncalm_step hp hcr hctx hs (h1.trans hctx)
    | true =>
      have hi := inv_reach hcalm
      obtain ⟨hcl, _⟩ := hi.drained hd
      rcases hx with hg | ⟨x, hxi, hdx⟩
      · obtain ⟨_, h2⟩ := C79_generator_partial hcalm hctx hcl
        exact ⟨_, .genPanic m hcr hg h2, hctx⟩
      · obtain ⟨h1, h2⟩ := C16_all_finished_partial hcalm hctx hcl
        obtain ⟨k, hk, hkx⟩ := h1 x hxi
        obtain ⟨e, he⟩ := h2 k hk
        have hkw := (hi.jobs k hk).ret e (.inr he)
        have hpc : (calmM dies m).pc = .ended := by
          have := hi.closed; rw [hcl] at this
          cases hp : (calmM dies m).pc <;> rw [hp] at this <;> simp at this ⊢
        have hwg := hi.wg
        rw [hi.final (by rw [hpc]; rfl), hpc] at hwg
        simp only [Pc.running] at hwg
        have hnd : (calmM dies m).jobs.countP notDeferred = 0 := by omega
        have hdf := zero_of_countP hnd k hk
        have hslots := hi.slots.1
        simp only [calmM, List.mem_map] at hk
        obtain ⟨j, hj, rfl⟩ := hk
        have hjdf : j.deferred = true := by simpa [notDeferred, calmJ] using hdf
        have hjx : dies j.item = true := by
          have : j.item = x := hkx
          rw [this]; exact hdx
        have hji := hp j hj
        obtain ⟨c0, hre⟩ := hji.reach
        obtain ⟨o1, ho1⟩ := (hi.jobs _ (List.mem_map.2 ⟨j, hj, rfl⟩)).defd hjdf
        have hlv : ∃ o, j.d.caller = .leave o := by
          have hnl : ∀ o, j.d.caller ≠ .left o := by
            intro o ho
            obtain ⟨e', rfl⟩ := hji.left o ho
            rcases (do_inv hre).out _ (.inr ho) with ⟨e2, _, h4 | h4⟩ | ⟨p, h4, _⟩
            · rw [hji.ctxEq, hctx] at h4; simp at h4
            · exact (hji.noRet hjx e2).2 h4
            · simp at h4
          simp only [calmJ, hjx, true_and] at ho1
          rw [if_pos (by exact hkw)] at ho1
          cases hcl' : j.d.caller with
          | leave o => exact ⟨o, rfl⟩
          | left o => exact absurd hcl' (hnl o)
          | _ => rw [calm, hcl'] at ho1; simp [calmC] at ho1
        obtain ⟨o, ho⟩ := hlv
        have hocc : 0 < (m.jobs.map (calmJ dies)).countP occupies := by
          rw [List.countP_pos_iff]
          refine ⟨calmJ dies j, List.mem_map.2 ⟨j, hj, rfl⟩, ?_⟩
          simp only [occupies, calmJ]
          split <;> simp [calm, ho, calmC, Caller.gone]
        have hlen : 0 < m.slots.buf.length := by
          have : m.slots.buf.length = (m.jobs.map (calmJ dies)).countP occupies := hslots
          omega
        obtain ⟨u, us, hus⟩ := List.exists_cons_of_length_pos hlen
        obtain ⟨l₁, l₂, hsp⟩ := List.append_of_mem hj
        refine ⟨_, .other m _ (.release m l₁ l₂ j o _ { m.slots with buf := us } hcr hsp ho hjdf (by simp [Chan.recv, hus]) (.leave _ o ho) rfl) ?_, hctx⟩
        intro i a b h1 h2 h3 h4
        have hga : b.d.gor = a.d.gor := by
          simp only [hsp] at h1 h2
          by_cases hlt : i < l₁.length
          · rw [List.getElem?_append_left hlt] at h1 h2
            rw [h1] at h2; simp only [Option.some.injEq] at h2; rw [h2]
          · rw [List.getElem?_append_right (by omega)] at h1 h2
            cases hn : i - l₁.length with
            | zero =>
              rw [hn] at h1 h2
              simp only [List.getElem?_cons_zero, Option.some.injEq] at h1 h2
              rw [← h1, ← h2]
            | succ n =>
              rw [hn] at h1 h2
              simp only [List.getElem?_cons_succ] at h1 h2
              rw [h1] at h2; simp only [Option.some.injEq] at h2; rw [h2]
        rw [hga, h3] at h4; simp at h4

example : ∃ m : MR Nat Nat, ReachP [1] (fun _ => []) (fun _ => true) false 1 none m ∧ m.ctx = none ∧ m.crashed = false ∧
    ∃ x ∈ [1], (fun _ => true) x = true := demoDies.imp fun _ h => ⟨h.1, h.2.1, h.2.2.1, 1, by simp, rfl⟩

end Verif.XMapReduce

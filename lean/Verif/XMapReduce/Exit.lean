import Verif.XMapReduce.GenStop
/-!
# A `mapFunc` that ends its goroutine

`mapFunc` runs in a goroutine of its own, and can end it without returning: `runtime.Goexit`, as used by `FailNow` of package testing (or,
before Go 1.21, `panic(nil)`). `Do` (do.go:43-47) then delivers nothing to the worker.
-/
namespace Verif.XMapReduce
open Verif.Go Verif.XTask Verif.XStream

variable {α β : Type}

/-- The steps of `Map` (`Step`, xmapreduce.go:64-119), and one more: a `mapFunc` (xmapreduce.go:110) that is not inside `Write` ends its
goroutine. What follows, the deferred function of do.go:42-48, is a step `doStep` (`DoStep.deliverNone`). -/
inductive StepX (f : α → List β) : MR α β → MR α β → Prop where
  | step {m m' : MR α β} : Step f m m' → StepX f m m'
  | exit (m : MR α β) (l₁ l₂ : List (Job α β)) (j : Job α β) : m.crashed = false → m.jobs = l₁ ++ j :: l₂ → j.d.gor = .running → j.sending = false →
      StepX f m { m with jobs := l₁ ++ { j with d := { j.d with gor := .finished .exited } } :: l₂ }

/-- Reachable states with such functions (`Reach`). -/
inductive ReachX (items : List α) (f : α → List β) (size : Nat) (ctx : Option Err) : MR α β → Prop where
  | init : ReachX items f size ctx (start items size ctx)
  | step {m m' : MR α β} : ReachX items f size ctx m → StepX f m m' → ReachX items f size ctx m'

/-- Executions with their number of steps. -/
inductive RunX (f : α → List β) : Nat → MR α β → MR α β → Prop where
  | nil (m : MR α β) : RunX f 0 m m
  | snoc {n : Nat} {m m' m'' : MR α β} : RunX f n m m' → StepX f m' m'' → RunX f (n + 1) m m''

/-- `mapFunc` has ended its goroutine. -/
def Job.exited (j : Job α β) : Bool := j.d.gor == .finished .exited || j.d.gor == .ended .exited

/-! ## Simulation: a `mapFunc` that has ended its goroutine is like one that goes on for ever -/

/-- Proof only: a `mapFunc` that has ended its goroutine is replaced by one that goes on. -/
def unG : Gor Err Unit → Gor Err Unit
  | .finished .exited => .running
  | .ended .exited => .running
  | g => g

/-- Proof only: a `mapFunc` that has ended its goroutine is replaced by one that goes on. -/
def unD (d : DoSt Err Unit) : DoSt Err Unit := { d with gor := unG d.gor }
/-- Proof only: a `mapFunc` that has ended its goroutine is replaced by one that goes on. -/
def unJ (j : Job α β) : Job α β := { j with d := unD j.d }
/-- Proof only: a `mapFunc` that has ended its goroutine is replaced by one that goes on. -/
def unM (m : MR α β) : MR α β := { m with jobs := m.jobs.map unJ }

theorem unG_finished {g : Gor Err Unit} {o : Outcome Err Unit} (h : unG g = .finished o) : g = .finished o := by
  cases g with
  | finished o' => cases o' <;> simp_all [unG]
  | ended o' => cases o' <;> simp_all [unG]
  | _ => simp_all [unG]

theorem un_doStep {d d' : DoSt Err Unit} (h : DoStep true d d') : DoStep true (unD d) (unD d') ∨ unD d' = unD d := by
  cases h with
  | cancel e hc => exact .inl (.cancel _ e hc)
  | entryDone e h1 h2 => exact .inl (.entryDone _ e h1 h2)
  | entryGo h1 h2 => exact .inl (.entryGo _ h1 h2)
  | spawn h1 => exact .inl (.spawn _ h1)
  | finish o hg =>
    cases o with
    | exited => exact .inr (by simp [unD, unG, hg])
    | returned e => exact .inl (.finish _ (.returned e) (by simp [unD, unG, hg]))
    | panicked p => exact .inl (.finish _ (.panicked p) (by simp [unD, unG, hg]))
  | deliverRet e c hg hs => exact .inl (.deliverRet _ e c (by simp [unD, unG, hg]) hs)
  | deliverPanic p c hg hs => exact .inl (.deliverPanic _ p c (by simp [unD, unG, hg]) hs)
  | deliverNone hg => exact .inr (by simp [unD, unG, hg])
  | recvPanic p c h1 h2 => exact .inl (.recvPanic _ p c h1 h2)
  | recvDone e c h1 h2 => exact .inl (.recvDone _ e c h1 h2)
  | recvCtx e h1 h2 => exact .inl (.recvCtx _ e h1 h2)
  | leave o h1 => exact .inl (.leave _ o h1)

theorem unJ_split {m : MR α β} {l₁ l₂ : List (Job α β)} {j : Job α β} (h : m.jobs = l₁ ++ j :: l₂) :
    (unM m).jobs = l₁.map unJ ++ unJ j :: l₂.map unJ := by simp [unM, h]

theorem un_running {j : Job α β} (h : j.d.gor = .running) : (unJ j).d.gor = .running := by simp [unJ, unD, unG, h]

theorem un_step {f : α → List β} {m m' : MR α β} (hs : StepX f m m') : Step f (unM m) (unM m') ∨ unM m' = unM m := by
  have same : ∀ {l₁ l₂ : List (Job α β)} {j j' : Job α β}, m.jobs = l₁ ++ j :: l₂ → unJ j' = unJ j → unM { m with jobs := l₁ ++ j' :: l₂ } = unM m := by
    intro l₁ l₂ j j' hj e
    simp [unM, hj, e]
  cases hs with
  | exit l₁ l₂ j hc hj hg hsn => exact .inr (same hj (by simp [unJ, unD, unG, hg]))
  | step hs =>
    cases hs with
    | cancel hc hx =>
      refine .inl ?_
      have := Step.cancel (f := f) (unM m) hc hx
      simp only [unM, List.map_map, Function.comp_def] at this ⊢
      exact this
    | handOver x xs hc hg hp => exact .inl (.handOver _ x xs hc hg hp)
    | closeSource hc hg hsr => exact .inl (.closeSource _ hc hg hsr)
    | selectDone hc hp hx => exact .inl (.selectDone _ hc hp hx)
    | selectClosed hc hp hx => exact .inl (.selectClosed _ hc hp hx)
    | add x hc hp => exact .inl (.add _ x hc hp)
    | run x c hc hp hsd =>
      refine .inl ?_
      have := Step.run (f := f) (unM m) x c hc hp hsd
      simp only [unM, List.map_append, List.map_cons, List.map_nil] at this ⊢
      exact this
    | doStep l₁ l₂ j d' hc hj hd h2 h3 h4 =>
      rcases un_doStep hd with h | h
      · refine .inl ?_
        have := Step.doStep (f := f) (unM m) (l₁.map unJ) (l₂.map unJ) (unJ j) (unD d') hc (unJ_split hj) h h2 h3
          (fun o ho => by
            have := h4 o (unG_finished ho)
            simp only [unJ, unD, this] at ho ⊢
            rw [unG_finished (g := d'.gor) ho] at ho
            exact ho)
        simp only [unM, List.map_append, List.map_cons] at this ⊢
        exact this
      · exact .inr (same hj (by simp [unJ, h]))
    | writeGo l₁ l₂ j v vs hc hj h1 h2 h3 h4 =>
      refine .inl ?_
      have := Step.writeGo (f := f) (unM m) (l₁.map unJ) (l₂.map unJ) (unJ j) v vs hc (unJ_split hj) (un_running h1) h2 h3 h4
      simp only [unM, List.map_append, List.map_cons] at this ⊢
      exact this
    | writeDone l₁ l₂ j v vs hc hj h1 h2 h3 h4 =>
      refine .inl ?_
      have := Step.writeDone (f := f) (unM m) (l₁.map unJ) (l₂.map unJ) (unJ j) v vs hc (unJ_split hj) (un_running h1) h2 h3 h4
      simp only [unM, List.map_append, List.map_cons] at this ⊢
      exact this
    | writeSent l₁ l₂ j v vs c hc hj h1 h2 h3 h4 =>
      refine .inl ?_
      have := Step.writeSent (f := f) (unM m) (l₁.map unJ) (l₂.map unJ) (unJ j) v vs c hc (unJ_split hj) (un_running h1) h2 h3 h4
      simp only [unM, List.map_append, List.map_cons] at this ⊢
      exact this
    | writePanic l₁ l₂ j v vs d' hc hj h1 h2 h3 h4 h5 h6 =>
      refine .inl ?_
      have hd : DoStep true (unD j.d) (unD d') := by
        rcases un_doStep h5 with h | h
        · exact h
        · have : (unD d').gor = (unD j.d).gor := by rw [h]
          simp [unD, unG, h1, h6] at this
      have := Step.writePanic (f := f) (unM m) (l₁.map unJ) (l₂.map unJ) (unJ j) v vs (unD d') hc (unJ_split hj) (un_running h1) h2 h3 h4 hd
        (by simp [unD, unG, h6])
      simp only [unM, List.map_append, List.map_cons] at this ⊢
      exact this
    | mapReturn l₁ l₂ j d' hc hj h1 h2 h3 h4 =>
      refine .inl ?_
      have hd : DoStep true (unD j.d) (unD d') := by
        rcases un_doStep h3 with h | h
        · exact h
        · have : (unD d').gor = (unD j.d).gor := by rw [h]
          simp [unD, unG, h1, h4] at this
      have := Step.mapReturn (f := f) (unM m) (l₁.map unJ) (l₂.map unJ) (unJ j) (unD d') hc (unJ_split hj) (un_running h1) h2 hd (by simp [unD, unG, h4])
      simp only [unM, List.map_append, List.map_cons] at this ⊢
      exact this
    | done l₁ l₂ j o hc hj h1 h2 =>
      refine .inl ?_
      have := Step.done (f := f) (unM m) (l₁.map unJ) (l₂.map unJ) (unJ j) o hc (unJ_split hj) h1 h2
      simp only [unM, List.map_append, List.map_cons] at this ⊢
      exact this
    | release l₁ l₂ j o d' c hc hj h1 h2 h3 h4 h5 =>
      refine .inl ?_
      have hd : DoStep true (unD j.d) (unD d') := by
        rcases un_doStep h4 with h | h
        · exact h
        · have : (unD d').caller = (unD j.d).caller := by rw [h]
          simp [unD, h1, h5] at this
      have := Step.release (f := f) (unM m) (l₁.map unJ) (l₂.map unJ) (unJ j) o (unD d') c hc (unJ_split hj) h1 h2 h3 hd h5
      simp only [unM, List.map_append, List.map_cons] at this ⊢
      exact this
    | waited hc hp hw => exact .inl (.waited _ hc hp hw)
    | close hc hp => exact .inl (.close _ hc hp)
    | consume v c hc hr => exact .inl (.consume _ v c hc hr)
    | consumeEnd hc hd hr => exact .inl (.consumeEnd _ hc hd hr)

theorem un_reach {items : List α} {f : α → List β} {size : Nat} {ctx : Option Err} {m : MR α β} (h : ReachX items f size ctx m) :
    Reach items f size ctx (unM m) := by
  induction h with
  | init => exact .init
  | step _ hs ih =>
    rcases un_step hs with h | h
    · exact ih.step h
    · rw [h]; exact ih

/-- Every job is a call of `Do`. -/
theorem do_reach {items : List α} {f : α → List β} {size : Nat} {ctx : Option Err} {m : MR α β} (h : ReachX items f size ctx m) :
    ∀ j ∈ m.jobs, ∃ c0, DoReach true c0 j.d := by
  induction h with
  | init => simp [start]
  | step hr0 hs ih =>
    have one : ∀ {l₁ l₂ : List (Job α β)} {j j' : Job α β} {l : List (Job α β)}, (∀ j ∈ l, ∃ c0, DoReach true c0 j.d) → l = l₁ ++ j :: l₂ →
        ((∃ c0, DoReach true c0 j.d) → ∃ c0, DoReach true c0 j'.d) → ∀ k ∈ l₁ ++ j' :: l₂, ∃ c0, DoReach true c0 k.d := by
      intro l₁ l₂ j j' l ih hj hd
      subst hj
      exact forall_repl ih (hd (ih j (by simp)))
    cases hs with
    | exit l₁ l₂ j hc hj hg hsn => exact one ih hj fun ⟨c0, hr⟩ => ⟨c0, hr.step (.finish _ .exited hg)⟩
    | step hs =>
      cases hs with
      | cancel hc hx =>
        intro j hj
        obtain ⟨j0, hj0, rfl⟩ := List.mem_map.1 hj
        obtain ⟨c0, hr⟩ := ih j0 hj0
        have hx0 : j0.d.ctx = none := ((inv_reach (un_reach hr0)).jobs _ (List.mem_map_of_mem hj0)).ctxEq.trans hx
        exact ⟨c0, hr.step (.cancel _ .ctx hx0)⟩
      | run x c hc hp hsd =>
        intro j hj
        rcases List.mem_append.1 hj with hj | hj
        · exact ih j hj
        · simp only [List.mem_singleton] at hj
          subst hj
          exact ⟨_, .init⟩
      | doStep l₁ l₂ j d' hc hj hd _ _ _ => exact one ih hj fun ⟨c0, hr⟩ => ⟨c0, hr.step hd⟩
      | writeGo l₁ l₂ j v vs hc hj => exact one ih hj id
      | writeDone l₁ l₂ j v vs hc hj => exact one ih hj id
      | writeSent l₁ l₂ j v vs c hc hj => exact one ih hj id
      | writePanic l₁ l₂ j v vs d' hc hj _ _ _ _ hd _ => exact one ih hj fun ⟨c0, hr⟩ => ⟨c0, hr.step hd⟩
      | mapReturn l₁ l₂ j d' hc hj _ _ hd _ => exact one ih hj fun ⟨c0, hr⟩ => ⟨c0, hr.step hd⟩
      | done l₁ l₂ j o hc hj => exact one ih hj id
      | release l₁ l₂ j o d' c hc hj _ _ _ hd _ => exact one ih hj fun ⟨c0, hr⟩ => ⟨c0, hr.step hd⟩
      | _ => exact ih

theorem stepX_weight {items : List α} {f : α → List β} {size : Nat} {ctx : Option Err} {m m' : MR α β} (h : ReachX items f size ctx m) (hs : StepX f m m') :
    weight f m' < weight f m := by
  cases hs with
  | step hs => exact step_weight_of (do_reach h) hs
  | exit l₁ l₂ j hc hj hg hsn =>
    simp only [weight, hj, List.map_append, List.map_cons, List.sum_append, List.sum_cons, jobW, hg, gorW]; omega

/-- What is known of a `mapFunc` that has ended its goroutine: as long as the context is not done its worker waits, in its slot. -/
theorem exited_waits {items : List α} {f : α → List β} {size : Nat} {ctx : Option Err} {m : MR α β} (h : ReachX items f size ctx m) (hx : m.ctx = none)
    {j : Job α β} (hj : j ∈ m.jobs) (he : j.exited = true) : j.d.caller = .wait ∧ j.deferred = false := by
  have hji := (inv_reach (un_reach h)).jobs _ (List.mem_map_of_mem hj)
  have hctx : j.d.ctx = none := hji.ctxEq.trans hx
  obtain ⟨c0, hr⟩ := do_reach h j hj
  have hd := do_inv hr
  have hg : j.d.gor = .finished .exited ∨ j.d.gor = .ended .exited := by simpa [Job.exited] using he
  have hout : ∀ o, ¬ (j.d.caller = .leave o ∨ j.d.caller = .left o) := by
    intro o ho
    rcases hd.out o ho with ⟨e, _, h' | h'⟩ | ⟨p, _, h'⟩
    · rw [hctx] at h'; simp at h'
    · rw [h'] at hg; simp at hg
    · rw [h'] at hg; simp at hg
  have hb : ¬ j.d.caller.before := fun hb => by rw [(hd.entry hb).1] at hg; simp at hg
  refine ⟨?_, ?_⟩
  · cases hc : j.d.caller with
    | wait => rfl
    | entry => exact absurd (by rw [hc]; trivial) hb
    | spawn => exact absurd (by rw [hc]; trivial) hb
    | leave o => exact absurd (.inl hc) (hout o)
    | left o => exact absurd (.inr hc) (hout o)
  · cases hdf : j.deferred with
    | false => rfl
    | true => obtain ⟨o, ho⟩ := hji.defd hdf; exact absurd ho (hout o)

/-- A job that cannot move, in a state in which nothing moves without a change of the context. -/
theorem job_rests {items : List α} {f : α → List β} {size : Nat} (hsz : 1 ≤ size) {ctx : Option Err} {m : MR α β} (h : ReachX items f size ctx m)
    (hstuck : ∀ m', StepX f m m' → m'.ctx ≠ m.ctx) {j : Job α β} (hj : j ∈ m.jobs) :
    ((∃ o, j.d.caller = .left o) ∨ j.d.caller = .wait ∧ j.d.gor = .ended .exited ∧ m.ctx = none) ∧ (j.d.gor = .none ∨ ∃ o, j.d.gor = .ended o) := by
  have hi := inv_reach (un_reach h)
  have hcr : m.crashed = false := hi.crashed
  have hji := hi.jobs _ (List.mem_map_of_mem hj)
  obtain ⟨c0, hr⟩ := do_reach h j hj
  have hd := do_inv hr
  obtain ⟨l₁, l₂, hsp⟩ := List.append_of_mem hj
  have no : ∀ m', Step f m m' → m'.ctx = m.ctx → False := fun m' hs hx => hstuck m' (.step hs) hx
  have hgor : j.d.gor = .none ∨ ∃ o, j.d.gor = .ended o := by
    cases hg : j.d.gor with
    | none => exact .inl rfl
    | ended o => exact .inr ⟨o, rfl⟩
    | finished o =>
      exfalso
      cases o with
      | returned e =>
        exact no _ (.doStep m l₁ l₂ j _ hcr hsp (.deliverRet _ e _ hg (by simp [Chan.send, hd.capD.1, hd.capD.2, (hd.pending _ (Or.inr hg)).1]; rfl)) rfl
          (fun o ho => by simpa using ho) (by simp)) rfl
      | panicked p =>
        exact no _ (.doStep m l₁ l₂ j _ hcr hsp (.deliverPanic _ p _ hg (by simp [Chan.send, hd.capP.1, hd.capP.2, (hd.pending _ (Or.inr hg)).2]; rfl)) rfl
          (fun o ho => by simpa using ho) (by simp)) rfl
      | exited => exact no _ (.doStep m l₁ l₂ j _ hcr hsp (.deliverNone _ hg) rfl (fun o ho => by simpa using ho) (by simp)) rfl
    | running =>
      exfalso
      cases hsn : j.sending with
      | false => exact hstuck _ (.exit m l₁ l₂ j hcr hsp hg hsn) rfl
      | true =>
        have hne : j.writes ≠ [] := hji.sending hsn
        cases hw : j.writes with
        | nil => exact hne hw
        | cons v vs =>
          cases hsd : m.collector.send v with
          | sent c => exact no _ (.writeSent m l₁ l₂ j v vs c hcr hsp hg hw hsn hsd) rfl
          | panic => exact no _ (.writePanic m l₁ l₂ j v vs _ hcr hsp hg hw hsn hsd (.finish _ (.panicked ()) hg) rfl) rfl
          | blocked =>
            have hlen : m.collector.cap ≤ m.collector.buf.length := by
              unfold Chan.send at hsd
              split at hsd
              · simp at hsd
              · split at hsd
                · simp at hsd
                · omega
            have hcap : m.collector.cap = size := hi.coll.1
            cases hb : m.collector.buf with
            | nil => rw [hb] at hlen; simp at hlen; omega
            | cons u t => exact no _ (.consume m u _ hcr (by simp [Chan.recv, hb]; rfl)) rfl
  refine ⟨?_, hgor⟩
  cases hc : j.d.caller with
  | left o => exact .inl ⟨o, rfl⟩
  | entry =>
    exfalso
    cases hx : j.d.ctx with
    | none => exact no _ (.doStep m l₁ l₂ j _ hcr hsp (.entryGo _ hc hx) rfl (by simp) (fun o ho => by simpa using ho)) rfl
    | some e => exact no _ (.doStep m l₁ l₂ j _ hcr hsp (.entryDone _ e hc hx) rfl (by simp) (fun o ho => by simpa using ho)) rfl
  | spawn => exact (no _ (.doStep m l₁ l₂ j _ hcr hsp (.spawn _ hc) rfl (by simp) (by simp)) rfl).elim
  | leave o =>
    exfalso
    cases hdf : j.deferred with
    | false => exact no _ (.done m l₁ l₂ j o hcr hsp hc hdf) rfl
    | true =>
      have hpos : 0 < (unM m).jobs.countP occupies := by
        rw [List.countP_pos_iff]; exact ⟨_, List.mem_map_of_mem hj, by simp [occupies, Caller.gone, unJ, unD, hc]⟩
      rw [← hi.slots.1] at hpos
      have hpos' : 0 < m.slots.buf.length := hpos
      cases hb : m.slots.buf with
      | nil => rw [hb] at hpos'; simp at hpos'
      | cons u t => exact no _ (.release m l₁ l₂ j o _ _ hcr hsp hc hdf (by simp [Chan.recv, hb]; rfl) (.leave _ o hc) rfl) rfl
  | wait =>
    right
    have hx : j.d.ctx = none := by
      cases hx : j.d.ctx with
      | none => rfl
      | some e => exact (no _ (.doStep m l₁ l₂ j _ hcr hsp (.recvCtx _ e hc hx) rfl (by simp) (fun o ho => by simpa using ho)) rfl).elim
    rcases hgor with hg | ⟨o, hg⟩
    · exact absurd hg (hd.wait hc)
    · cases o with
      | returned e =>
        exact (no _ (.doStep m l₁ l₂ j _ hcr hsp (.recvDone _ e _ hc (by simp [Chan.recv, (hd.keep _ hc hg).1 e rfl]; rfl)) rfl (by simp)
          (fun o ho => by simpa using ho)) rfl).elim
      | panicked p =>
        exact (no _ (.doStep m l₁ l₂ j _ hcr hsp (.recvPanic _ p _ hc (by simp [Chan.recv, (hd.keep _ hc hg).2 p rfl]; rfl)) rfl (by simp)
          (fun o ho => by simpa using ho)) rfl).elim
      | exited => exact ⟨rfl, hg, hji.ctxEq.symm.trans hx⟩

/-- Where nothing moves without a change of the context: the number of occupied slots is that of the mappings that have ended their goroutine, and
these are those whose deferred function has not been called. -/
theorem rests {items : List α} {f : α → List β} {size : Nat} (hsz : 1 ≤ size) {ctx : Option Err} {m : MR α β} (h : ReachX items f size ctx m)
    (hstuck : ∀ m', StepX f m m' → m'.ctx ≠ m.ctx) :
    (m.ctx = none → m.slots.buf.length = m.jobs.countP Job.exited) ∧ (m.ctx ≠ none → m.slots.buf.length = 0) ∧
    m.wg = (m.slots.buf.length : Int) + m.pc.running := by
  have hi := inv_reach (un_reach h)
  have h1 : m.jobs.countP (fun j => occupies (unJ j)) = m.slots.buf.length := by
    have := hi.slots.1
    simp only [unM, List.countP_map] at this
    exact this.symm
  have h2 : m.wg = ((m.jobs.countP fun j => notDeferred (unJ j) : Nat) : Int) + m.pc.running := by
    have := hi.wg
    simp only [unM, List.countP_map] at this
    exact this
  have left : ∀ {j : Job α β}, j ∈ m.jobs → (∃ o, j.d.caller = .left o) → j.deferred = true := by
    intro j hj ⟨o, ho⟩
    exact (hi.jobs _ (List.mem_map_of_mem hj)).left o ho
  refine ⟨fun hx => ?_, fun hx => ?_, ?_⟩
  · rw [← h1]
    refine List.countP_congr fun j hj => ?_
    rcases (job_rests hsz h hstuck hj).1 with ⟨o, ho⟩ | ⟨hw, he, _⟩
    · have hno : j.exited = false := by
        cases he : j.exited with
        | false => rfl
        | true => rw [(exited_waits h hx hj he).1] at ho; simp at ho
      simp [occupies, unJ, unD, ho, Caller.gone, hno]
    · simp [occupies, unJ, unD, hw, Caller.gone, Job.exited, he]
  · rw [← h1, List.countP_eq_zero]
    intro j hj
    rcases (job_rests hsz h hstuck hj).1 with ⟨o, ho⟩ | ⟨_, _, hx'⟩
    · simp [occupies, unJ, unD, ho, Caller.gone]
    · exact absurd hx' hx
  · rw [h2, ← h1]
    congr 2
    refine List.countP_congr fun j hj => ?_
    rcases (job_rests hsz h hstuck hj).1 with hl | ⟨hw, he, hx⟩
    · obtain ⟨o, ho⟩ := hl
      simp [occupies, notDeferred, unJ, unD, ho, Caller.gone, left hj ⟨o, ho⟩]
    · simp [occupies, notDeferred, unJ, unD, hw, Caller.gone, (exited_waits h hx hj (by simp [Job.exited, he])).2]

/-! ## Concrete executions -/

/-- Two items, two workers: the first mapping ends its goroutine before its first `Write`. -/
theorem demoExits : ∃ m : MR Nat Nat, ReachX [1, 2] (fun x => [10 * x]) 2 none m ∧ m.ctx = none ∧ m.jobs.map Job.exited = [true] ∧ m.gen = [2] := by
  have h0 : ReachX [1, 2] (fun x : Nat => [10 * x]) 2 none (start [1, 2] 2 none) := .init
  have h1 := h0.step (.step (.handOver _ 1 [2] rfl rfl rfl))
  have h2 := h1.step (.step (.add _ 1 rfl rfl))
  have h3 := h2.step (.step (.run _ 1 _ rfl rfl rfl))
  have h4 := h3.step (.step (.doStep _ [] [] _ _ rfl rfl (.entryGo _ rfl rfl) rfl (by simp) (by simp)))
  have h5 := h4.step (.step (.doStep _ [] [] _ _ rfl rfl (.spawn _ rfl) rfl (by simp) (by simp)))
  have h6 := h5.step (.exit _ [] [] _ rfl rfl rfl rfl)
  exact ⟨_, h6, rfl, rfl, rfl⟩

/-- Every execution can be continued to its end, without the context changing. -/
theorem exists_end {items : List α} {f : α → List β} {size : Nat} {ctx : Option Err} {P : MR α β → Prop} (hP : ∀ m m', P m → StepX f m m' → m'.ctx = m.ctx → P m') :
    ∀ (n : Nat) (m : MR α β), weight f m ≤ n → ReachX items f size ctx m → P m →
      ∃ m', ReachX items f size ctx m' ∧ m'.ctx = m.ctx ∧ P m' ∧ ∀ m'', StepX f m' m'' → m''.ctx ≠ m'.ctx := by
  intro n
  induction n with
  | zero => intro m hw h hp; exact ⟨m, h, rfl, hp, fun m'' hs => absurd (stepX_weight h hs) (by omega)⟩
  | succ n ih =>
    intro m hw h hp
    by_cases hst : ∀ m'', StepX f m m'' → m''.ctx ≠ m.ctx
    · exact ⟨m, h, rfl, hp, hst⟩
    · simp only [not_forall, not_not] at hst
      obtain ⟨m'', hs, hx⟩ := hst
      have := stepX_weight h hs
      obtain ⟨m', h1, h2, h3⟩ := ih m'' (by omega) (h.step hs) (hP _ _ hp hs hx)
      exact ⟨m', h1, h2.trans hx, h3⟩

/-- The first mapping has ended its goroutine: this stays. -/
def FirstExited (m : MR α β) : Prop := ∃ j l, m.jobs = j :: l ∧ (j.d.gor = .finished .exited ∨ j.d.gor = .ended .exited)

theorem firstExited_step {items : List α} {f : α → List β} {size : Nat} {ctx : Option Err} {m m' : MR α β} (hr : ReachX items f size ctx m) (h : FirstExited m)
    (hs : StepX f m m') : FirstExited m' := by
  obtain ⟨j, l, hj, hg⟩ := h
  have one : ∀ {l₁ l₂ : List (Job α β)} {k k' : Job α β}, m.jobs = l₁ ++ k :: l₂ →
      ((k.d.gor = .finished .exited ∨ k.d.gor = .ended .exited) → k'.d.gor = .finished .exited ∨ k'.d.gor = .ended .exited) →
      ∃ j l, l₁ ++ k' :: l₂ = j :: l ∧ (j.d.gor = .finished .exited ∨ j.d.gor = .ended .exited) := by
    intro l₁ l₂ k k' e hk
    rw [hj] at e
    cases l₁ with
    | nil => simp at e; exact ⟨k', l₂, rfl, hk (e.1 ▸ hg)⟩
    | cons a l₁ => simp at e; exact ⟨a, l₁ ++ k' :: l₂, rfl, e.1 ▸ hg⟩
  have hdo : ∀ {k : Job α β} {d' : DoSt Err Unit}, k ∈ m.jobs → DoStep true k.d d' → (k.d.gor = .finished .exited ∨ k.d.gor = .ended .exited) →
      d'.gor = .finished .exited ∨ d'.gor = .ended .exited := by
    intro k d' hk hd h1
    obtain ⟨c0, hk⟩ := do_reach hr k hk
    cases hd with
    | spawn hc => have := ((do_inv hk).entry (by rw [hc]; trivial)).1; simp [this] at h1
    | _ => simp_all
  have mem : ∀ {l₁ l₂ : List (Job α β)} {k : Job α β}, m.jobs = l₁ ++ k :: l₂ → k ∈ m.jobs := by intro l₁ l₂ k e; rw [e]; simp
  cases hs with
  | exit l₁ l₂ k hc hk hg hsn => exact one hk fun _ => .inl rfl
  | step hs =>
    cases hs with
    | cancel hc hx => exact ⟨{ j with d := { j.d with ctx := some .ctx } }, _, by rw [hj]; rfl, hg⟩
    | run x c hc hp hsd => exact ⟨j, l ++ [Job.new m.ctx f x], by rw [hj]; rfl, hg⟩
    | doStep l₁ l₂ k d' hc hk hd _ _ _ => exact one hk (hdo (mem hk) hd)
    | writeGo l₁ l₂ k v vs hc hk => exact one hk id
    | writeDone l₁ l₂ k v vs hc hk => exact one hk id
    | writeSent l₁ l₂ k v vs c hc hk => exact one hk id
    | writePanic l₁ l₂ k v vs d' hc hk _ _ _ _ hd _ => exact one hk (hdo (mem hk) hd)
    | mapReturn l₁ l₂ k d' hc hk _ _ hd _ => exact one hk (hdo (mem hk) hd)
    | done l₁ l₂ k o hc hk => exact one hk id
    | release l₁ l₂ k o d' c hc hk _ _ _ hd _ => exact one hk (hdo (mem hk) hd)
    | _ => exact ⟨j, l, hj, hg⟩

/-- The end of such an execution: the second item has been mapped. -/
theorem demoEnd : ∃ m : MR Nat Nat, ReachX [1, 2] (fun x => [10 * x]) 2 none m ∧ m.ctx = none ∧ 1 ≤ m.jobs.countP Job.exited ∧
    ∀ m', StepX (fun x => [10 * x]) m m' → m'.ctx ≠ m.ctx := by
  obtain ⟨m, h1, h2, h3, _⟩ := demoExits
  have hf : FirstExited m := by
    cases hj : m.jobs with
    | nil => simp [hj] at h3
    | cons j l =>
      rw [hj] at h3
      simp only [List.map_cons, List.cons.injEq] at h3
      exact ⟨j, l, hj, by simpa [Job.exited] using h3.1⟩
  obtain ⟨m', e1, e2, ⟨-, j, l, hj, hg⟩, e4⟩ := exists_end (P := fun m => ReachX [1, 2] (fun x => [10 * x]) 2 none m ∧ FirstExited m)
    (fun _ _ h hs _ => ⟨h.1.step hs, firstExited_step h.1 h.2 hs⟩) _ m (Nat.le_refl _) h1 ⟨h1, hf⟩
  refine ⟨m', e1, e2.trans h2, ?_, e4⟩
  rw [Nat.succ_le_iff, List.countP_pos_iff]
  exact ⟨j, by rw [hj]; simp, by simpa [Job.exited] using hg⟩

/-! ## The theorems -/

/-- C136: whichever mappings end their goroutine, the program does not crash, the output is closed at most once, and contains for every item
a prefix of what its mapping would write, interleaved; mappings are started in the order of the items. -/
theorem C136_output {items : List α} {f : α → List β} {size : Nat} {ctx : Option Err} {m : MR α β} (h : ReachX items f size ctx m) :
    m.crashed = false ∧ m.closes ≤ 1 ∧ m.jobs.map (·.item) <+: items ∧
    ∃ ls, List.Forall₂ (· <+: ·) ls (items.map f) ∧ (∀ l ∈ ls.drop m.jobs.length, l = []) ∧ Interleaving ls (m.out ++ m.collector.buf) := by
  have hi := inv_reach (un_reach h)
  obtain ⟨h1, ls, h2, h3, h4⟩ := C120_cut (un_reach h)
  refine ⟨hi.crashed, ?_, ?_, ls, h2, ?_, h4⟩
  · have : m.closes = _ := hi.closes
    split at this <;> omega
  · simpa [unM, unJ, Function.comp_def] using h1
  · simpa [unM] using h3

example := demoExits.imp fun _ h => C136_output h.1

/-- C136: as long as the context is not done, the output is not closed after a mapping has ended its goroutine, and each such mapping keeps one
of the slots. -/
theorem C136_open {items : List α} {f : α → List β} {size : Nat} {ctx : Option Err} {m : MR α β} (h : ReachX items f size ctx m) (hx : m.ctx = none) :
    m.jobs.countP Job.exited ≤ size ∧ (1 ≤ m.jobs.countP Job.exited → m.collector.closed = false ∧ m.drained = false) := by
  have hi := inv_reach (un_reach h)
  refine ⟨?_, fun he => ?_⟩
  · have h1 : m.jobs.countP (fun j => occupies (unJ j)) = m.slots.buf.length := by
      have := hi.slots.1
      simp only [unM, List.countP_map] at this
      exact this.symm
    have h2 : m.slots.buf.length ≤ size := hi.slots.2.2.2
    refine Nat.le_trans (List.countP_mono_left fun j hj he => ?_) (h1 ▸ h2)
    simp [occupies, unJ, unD, (exited_waits h hx hj he).1, Caller.gone]
  · obtain ⟨j, hj, hje⟩ := exists_job (m := m) (p := Job.exited) he
    have hcl : m.collector.closed = false := by
      cases hcl : m.collector.closed with
      | false => rfl
      | true =>
        have hpc : m.pc = .ended := by
          have : m.collector.closed = _ := hi.closed
          rw [hcl] at this
          cases hp : m.pc <;> simp only [unM, hp] at this <;> simp at this ⊢
        have hw : m.wg = 0 := hi.final (by simp [unM, hpc, Pc.final])
        have h2 := hi.wg
        simp only [unM, hpc, hw, Pc.running, List.countP_map] at h2
        have h3 := zero_of_countP (p := notDeferred ∘ unJ) (l := m.jobs) (by omega) j hj
        simp [notDeferred, unJ, (exited_waits h hx hj hje).2] at h3
    refine ⟨hcl, ?_⟩
    cases hd : m.drained with
    | false => rfl
    | true => have : m.collector.closed = true := (hi.drained hd).1; rw [hcl] at this; simp at this

example : ∃ m : MR Nat Nat, 1 ≤ m.jobs.countP Job.exited ∧ m.drained = false :=
  have ⟨m, h1, h2, h3, _⟩ := demoEnd; ⟨m, h3, ((C136_open h1 h2).2 h3).2⟩

/-- C136: every execution is finite, with the bound of C17. -/
theorem C136_finite {items : List α} {f : α → List β} {size : Nat} {ctx : Option Err} {n : Nat} {m : MR α β}
    (h : RunX f n (start items size ctx) m) : n ≤ 6 + (items.map fun x => 12 + 3 * (f x).length).sum := by
  have key : ReachX items f size ctx m ∧ n + weight f m ≤ weight f (start items size ctx : MR α β) := by
    generalize hs0 : (start items size ctx : MR α β) = s at h
    induction h with
    | nil => subst hs0; exact ⟨.init, by omega⟩
    | snoc _ hs ih =>
      obtain ⟨h1, h2⟩ := ih hs0
      have := stepX_weight h1 hs
      exact ⟨h1.step hs, by omega⟩
  have h2 := key.2
  have : weight f (start items size ctx : MR α β) ≤ 6 + (items.map fun x => 12 + 3 * (f x).length).sum := by
    simp only [weight, start, pcW, Chan.make, List.map_nil, List.sum_nil, List.length_nil]
    by_cases hc : ctx = none <;> simp [hc] <;> omega
  omega

example : ∃ m : MR Nat Nat, RunX (fun x => [10 * x]) 1 (start [1, 2] 1 none) m := ⟨_, .snoc (.nil _) (.step (.cancel _ rfl rfl))⟩

/-- C136: what the end of an execution looks like if the context is not done, for at least one worker and a consumer that keeps receiving. The
consumer has seen the end of the output exactly if no mapping has ended its goroutine. Every mapping that was started and has not ended its
goroutine has delivered everything. If fewer mappings than there are workers have ended their goroutine, all items have been mapped and the
generator has returned. -/
theorem C136_end {items : List α} {f : α → List β} {size : Nat} (hsz : 1 ≤ size) {ctx : Option Err} {m : MR α β} (h : ReachX items f size ctx m)
    (hx : m.ctx = none) (hstuck : ∀ m', StepX f m m' → m'.ctx ≠ m.ctx) :
    (m.drained = true ↔ m.jobs.countP Job.exited = 0) ∧
    (∃ ls, List.Forall₂ (fun l (j : Job α β) => l <+: f j.item ∧ (j.exited = false → l = f j.item)) ls m.jobs ∧ Interleaving ls m.out) ∧
    (m.jobs.countP Job.exited < size → m.jobs.map (·.item) = items ∧ m.srcClosed = true) := by
  have hi := inv_reach (un_reach h)
  have hcr : m.crashed = false := hi.crashed
  have hcut := cut_inv (un_reach h)
  have no : ∀ m', Step f m m' → m'.ctx = m.ctx → False := fun m' hs hx => hstuck m' (.step hs) hx
  obtain ⟨r1, -, r3⟩ := rests hsz h hstuck
  have r1 := r1 hx
  have hbuf : m.collector.buf = [] := by
    cases hb : m.collector.buf with
    | nil => rfl
    | cons u t => exact (no _ (.consume m u _ hcr (by simp [Chan.recv, hb]; rfl)) rfl).elim
  have hmap : (unM m).jobs.map (·.item) = m.jobs.map (·.item) := by simp [unM, unJ, Function.comp_def]
  have horder : items = m.jobs.map (·.item) ++ m.pc.items ++ m.gen := hmap ▸ hcut.order
  have hs2 : m.slots.cap = size := hi.slots.2.1
  have hs3 : m.slots.closed = false := hi.slots.2.2.1
  have hs4 : m.slots.buf.length ≤ size := hi.slots.2.2.2
  have hpc : (m.pc = .ended ∧ m.drained = true ∧ m.jobs.countP Job.exited = 0 ∨ m.pc = .wait ∧ 1 ≤ m.jobs.countP Job.exited ∨
      (∃ x, m.pc = .run x) ∧ m.jobs.countP Job.exited = size) := by
    cases hp : m.pc with
    | select =>
      exfalso
      cases hg : m.gen with
      | cons x xs => exact no _ (.handOver m x xs hcr hg hp) rfl
      | nil =>
        cases hsr : m.srcClosed with
        | true => exact no _ (.selectClosed m hcr hp hsr) rfl
        | false => exact no _ (.closeSource m hcr hg hsr) rfl
    | add x => exact (no _ (.add m x hcr hp) rfl).elim
    | run x =>
      refine .inr (.inr ⟨⟨x, rfl⟩, ?_⟩)
      by_contra hne
      exact no _ (.run m x _ hcr hp (by simp only [Chan.send, hs3, hs2]; rw [if_neg (by simp), if_pos (by omega)])) rfl
    | wait =>
      refine .inr (.inl ⟨rfl, ?_⟩)
      by_contra hne
      exact no _ (.waited m hcr hp (by rw [r3, hp]; simp only [Pc.running]; omega)) rfl
    | close => exact (no _ (.close m hcr hp) rfl).elim
    | ended =>
      refine .inl ⟨rfl, ?_, ?_⟩
      · cases hd : m.drained with
        | true => rfl
        | false =>
          have hcl : m.collector.closed = _ := hi.closed
          simp only [unM, hp] at hcl
          exact (no _ (.consumeEnd m hcr hd (by simp [Chan.recv, hbuf, hcl])) rfl).elim
      · have hw : m.wg = 0 := hi.final (by simp [unM, hp, Pc.final])
        rw [hp] at r3
        simp only [Pc.running] at r3
        omega
  refine ⟨⟨fun hd => ?_, fun he => ?_⟩, ⟨m.jobs.map (Job.sent f), ?_, ?_⟩, fun hlt => ?_⟩
  · by_contra hne
    have := ((C136_open h hx).2 (by omega)).2
    rw [hd] at this; simp at this
  · rcases hpc with ⟨_, hd, _⟩ | ⟨_, h'⟩ | ⟨_, h'⟩
    · exact hd
    · omega
    · omega
  · rw [List.forall₂_map_left_iff, List.forall₂_same]
    intro j hj
    refine ⟨List.take_prefix _ _, fun he => ?_⟩
    have hji := hi.jobs _ (List.mem_map_of_mem hj)
    have hjc := hcut.jobs _ (List.mem_map_of_mem hj)
    have hun : unJ j = j := by
      have : unG j.d.gor = j.d.gor := by
        cases hg : j.d.gor with
        | finished o => cases o <;> simp_all [unG, Job.exited]
        | ended o => cases o <;> simp_all [unG, Job.exited]
        | _ => simp [unG]
      simp [unJ, unD, this]
    rw [hun] at hji hjc
    have hw : j.writes = [] := by
      rcases (job_rests hsz h hstuck hj).1 with ⟨o, ho⟩ | ⟨_, he', _⟩
      · obtain ⟨c0, hr⟩ := do_reach h j hj
        have hctx : j.d.ctx = none := hji.ctxEq.trans hx
        rcases (do_inv hr).out o (.inr ho) with ⟨e, _, h' | h'⟩ | ⟨p, _, h'⟩
        · rw [hctx] at h'; simp at h'
        · exact hji.ret e (Or.inr h')
        · obtain ⟨_, e, he⟩ := hji.panicked (Or.inr h')
          rcases (do_inv hr).out (.err e) he with ⟨e', _, h'' | h''⟩ | ⟨p, h'', _⟩
          · rw [hctx] at h''; simp at h''
          · rw [h'] at h''; simp at h''
          · simp at h''
      · simp [Job.exited, he'] at he
    have hrest := hjc.rest (fun hf => (hjc.refused hf).1 hx)
    rw [hw] at hrest
    have := List.take_append_drop (j.results.count true) (f j.item)
    rw [hrest, List.append_nil] at this
    exact this
  · have := hcut.out
    have e : (unM m).jobs.map (Job.sent f) = m.jobs.map (Job.sent f) := by simp [unM, Function.comp_def, Job.sent, unJ]
    rw [e] at this
    simpa [unM, hbuf] using this
  · have over : m.pc.over = true → m.srcClosed = true := fun ho => (hi.over ho).resolve_left (fun hn => hn hx)
    rcases hpc with ⟨hp, _⟩ | ⟨hp, _⟩ | ⟨_, h'⟩
    · have hsr := over (by rw [hp]; rfl)
      have hg : m.gen = [] := hi.src hsr
      rw [hp, hg] at horder
      exact ⟨by rw [horder]; simp [Pc.items], hsr⟩
    · have hsr := over (by rw [hp]; rfl)
      have hg : m.gen = [] := hi.src hsr
      rw [hp, hg] at horder
      exact ⟨by rw [horder]; simp [Pc.items], hsr⟩
    · omega

example : ∃ m : MR Nat Nat, 1 ≤ m.jobs.countP Job.exited ∧ m.drained = false :=
  have ⟨m, h1, h2, h3, h4⟩ := demoEnd
  ⟨m, h3, by
    have := (C136_end (by decide) h1 h2 h4).1
    cases hd : m.drained with
    | false => rfl
    | true => rw [hd] at this; have := this.1 rfl; omega⟩

/-- C136: a cancellation helps: if the context is done, then at the end of an execution the consumer has seen the end of the output and all
workers and mappings have ended. -/
theorem C136_cancelled {items : List α} {f : α → List β} {size : Nat} (hsz : 1 ≤ size) {ctx : Option Err} {m : MR α β} (h : ReachX items f size ctx m)
    (hx : m.ctx ≠ none) (hstuck : ∀ m', StepX f m m' → m'.ctx ≠ m.ctx) :
    m.drained = true ∧ m.pc = .ended ∧ ∀ j ∈ m.jobs, (∃ o, j.d.caller = .left o) ∧ (j.d.gor = .none ∨ ∃ o, j.d.gor = .ended o) := by
  have hi := inv_reach (un_reach h)
  have hcr : m.crashed = false := hi.crashed
  have no : ∀ m', Step f m m' → m'.ctx = m.ctx → False := fun m' hs hx => hstuck m' (.step hs) hx
  obtain ⟨-, r2, r3⟩ := rests hsz h hstuck
  have r2 := r2 hx
  have hs2 : m.slots.cap = size := hi.slots.2.1
  have hs3 : m.slots.closed = false := hi.slots.2.2.1
  have hpc : m.pc = .ended := by
    cases hp : m.pc with
    | ended => rfl
    | select => exact (no _ (.selectDone m hcr hp hx) rfl).elim
    | add x => exact (no _ (.add m x hcr hp) rfl).elim
    | run x => exact (no _ (.run m x _ hcr hp (by simp only [Chan.send, hs3, hs2]; rw [if_neg (by simp), if_pos (by omega)])) rfl).elim
    | wait => exact (no _ (.waited m hcr hp (by rw [r3, hp]; simp only [Pc.running]; omega)) rfl).elim
    | close => exact (no _ (.close m hcr hp) rfl).elim
  refine ⟨?_, hpc, fun j hj => ?_⟩
  · cases hd : m.drained with
    | true => rfl
    | false =>
      have hcl : m.collector.closed = _ := hi.closed
      simp only [unM, hpc] at hcl
      cases hb : m.collector.buf with
      | nil => exact (no _ (.consumeEnd m hcr hd (by simp [Chan.recv, hb, hcl])) rfl).elim
      | cons u t => exact (no _ (.consume m u _ hcr (by simp [Chan.recv, hb]; rfl)) rfl).elim
  · obtain ⟨h1, h2⟩ := job_rests hsz h hstuck hj
    exact ⟨h1.resolve_right (fun h' => hx h'.2.2), h2⟩

/-- The execution of `demoExits` goes on with a cancellation. -/
example : ∃ m : MR Nat Nat, m.ctx ≠ none ∧ m.drained = true := by
  obtain ⟨m, h1, h2, _⟩ := demoExits
  have h := h1.step (.step (.cancel m (inv_reach (un_reach h1)).crashed h2))
  obtain ⟨m', e1, e2, _, e4⟩ := exists_end (P := fun _ => True) (fun _ _ _ _ _ => trivial) _ _ (Nat.le_refl _) h trivial
  have hx : m'.ctx ≠ none := by rw [e2]; simp
  exact ⟨m', hx, (C136_cancelled (by decide) e1 hx e4).1⟩

end Verif.XMapReduce

import Verif.XMapReduce.React
import Verif.XMapReduce.Cut
/-! # `Map` with a reacting `mapFunc` is simulated by `Map` with lists of writes -/
namespace Verif.XMapReduce
open Verif.Go Verif.XTask

variable {α β : Type}

/-- A job as one of `Model.lean`: the values it would write if all `Write` calls succeeded; after the first refusal all others are refused. -/
def JobA.abs (F : α → MapF β) (j : JobA α β) : Job α β :=
  { item := j.item, d := j.d, deferred := j.deferred, sending := j.sending,
    writes := if j.results.all id then j.code.all else [],
    results := if j.results.all id then j.results
      else j.results.filter id ++ List.replicate ((F j.item).all.length - (j.results.filter id).length) false }

/-- A state as one of `Model.lean`. -/
def MRA.abs (F : α → MapF β) (m : MRA α β) : MR α β :=
  ⟨m.ctx, m.gen, m.srcClosed, m.pc, m.wg, m.slots, m.collector, m.jobs.map (JobA.abs F), m.out, m.drained, m.crashed, m.closes⟩

/-- Proof only: invariant of a job. -/
structure JobA.Ok (F : α → MapF β) (ctx : Option Err) (j : JobA α β) : Prop where
  code : j.code = (F j.item).after j.results
  calls : ((F j.item).calls j.results).length = j.results.length
  len : j.results.all id = true → j.results.length + j.code.all.length = (F j.item).all.length
  refused : j.results.all id = false → ctx ≠ none ∧ j.sending = false
  sorted : j.results = j.results.filter id ++ j.results.filter (! ·)
  prefix' : accepted ((F j.item).calls j.results) <+: (F j.item).all

/-- Proof only: invariant of all jobs. -/
def AOk (F : α → MapF β) (m : MRA α β) : Prop := ∀ j ∈ m.jobs, j.Ok F m.ctx

theorem MapF.after_snoc (c : MapF β) (bs : List Bool) (b : Bool) : c.after (bs ++ [b]) = (c.after bs).after [b] := by
  induction bs generalizing c with
  | nil => cases c <;> rfl
  | cons a bs ih => cases c with
    | ret => cases bs <;> rfl
    | write v k => exact ih (k a)

theorem MapF.calls_snoc (c : MapF β) (bs : List Bool) (b : Bool) : c.calls (bs ++ [b]) = c.calls bs ++ (c.after bs).calls [b] := by
  induction bs generalizing c with
  | nil => cases c <;> rfl
  | cons a bs ih => cases c with
    | ret => cases bs <;> rfl
    | write v k => simp [MapF.calls, MapF.after, ih (k a)]

theorem accepted_append (l l' : List (β × Bool)) : accepted (l ++ l') = accepted l ++ accepted l' := by simp [accepted]

/-- Written with success only. -/
theorem MapF.calls_true (c : MapF β) (bs : List Bool) (h : bs.all id = true) (hl : (c.calls bs).length = bs.length) :
    c.all = accepted (c.calls bs) ++ (c.after bs).all := by
  induction bs generalizing c with
  | nil => cases c <;> rfl
  | cons a bs ih =>
    cases c with
    | ret => simp [MapF.calls] at hl
    | write v k =>
      simp only [List.all_cons, id_eq, Bool.and_eq_true] at h
      obtain ⟨rfl, h⟩ := h
      simp only [MapF.calls, List.length_cons, Nat.add_right_cancel_iff] at hl
      have := ih (k true) h hl
      simp only [MapF.all, MapF.calls, MapF.after, this, accepted, List.filter_cons, ↓reduceIte, List.map_cons, List.cons_append]

theorem filter_all {l : List Bool} (h : l.all id = true) : l.filter id = l := by
  rw [List.filter_eq_self]; simpa using h

theorem filter_not_all {l : List Bool} (h : l.all id = true) : l.filter (! ·) = [] := by
  rw [List.filter_eq_nil_iff]; intro a ha; have := List.all_eq_true.1 h a ha; simpa using this

theorem RunN.trans {f : α → List β} {n n' : Nat} {m m' m'' : MR α β} (h : RunN f n m m') (h' : RunN f n' m' m'') : ∃ k, RunN f k m m'' := by
  induction h' with
  | nil => exact ⟨_, h⟩
  | snoc _ hs ih => obtain ⟨k, hk⟩ := ih h; exact ⟨k + 1, hk.snoc hs⟩

theorem RunN.reach {items : List α} {f : α → List β} {size : Nat} {ctx : Option Err} {n : Nat} {m m' : MR α β} (hr : RunN f n m m')
    (h : Reach items f size ctx m) : Reach items f size ctx m' ∧ n + weight f m' ≤ weight f m := by
  induction hr with
  | nil => exact ⟨h, by omega⟩
  | snoc _ hs ih =>
    obtain ⟨h1, h2⟩ := ih h
    have := step_weight (inv_reach h1) hs
    exact ⟨h1.step hs, by omega⟩

/-- All the remaining writes are refused, one after the other. -/
theorem refuse_all (f : α → List β) (ws : List β) : ∀ (m : MR α β) (l₁ l₂ : List (Job α β)) (j : Job α β), m.crashed = false → m.jobs = l₁ ++ j :: l₂ →
    j.d.gor = .running → j.writes = ws → j.sending = false → m.ctx ≠ none →
    ∃ n, RunN f n m { m with jobs := l₁ ++ { j with writes := [], results := j.results ++ List.replicate ws.length false } :: l₂ } := by
  induction ws with
  | nil =>
    intro m l₁ l₂ j _ hj _ hw _ _
    refine ⟨0, ?_⟩
    have : ({ j with writes := [], results := j.results ++ List.replicate ([] : List β).length false } : Job α β) = j := by
      cases j; simpa using hw.symm
    rw [this, ← hj]
    exact .nil m
  | cons v vs ih =>
    intro m l₁ l₂ j hc hj hg hw hs hx
    have h1 : Step f m _ := .writeDone m l₁ l₂ j v vs hc hj hg hw hs hx
    obtain ⟨n, hn⟩ := ih { m with jobs := l₁ ++ { j with writes := vs, results := j.results ++ [false] } :: l₂ } l₁ l₂
      { j with writes := vs, results := j.results ++ [false] } hc rfl hg rfl hs hx
    simp only [List.append_assoc, List.singleton_append, List.length_cons, List.replicate_succ] at hn ⊢
    exact ((RunN.nil m).snoc h1).trans hn

/-- Replacing one job in the middle. -/
theorem AOk.repl {F : α → MapF β} {m : MRA α β} (h : AOk F m) {l₁ l₂ : List (JobA α β)} {j j' : JobA α β} (hj : m.jobs = l₁ ++ j :: l₂)
    (hj' : j'.Ok F m.ctx) : ∀ a ∈ l₁ ++ j' :: l₂, a.Ok F m.ctx :=
  forall_repl (a := j) (by rw [← hj]; exact h) hj'

theorem AOk.mem {F : α → MapF β} {m : MRA α β} (h : AOk F m) {l₁ l₂ : List (JobA α β)} {j : JobA α β} (hj : m.jobs = l₁ ++ j :: l₂) : j.Ok F m.ctx :=
  h j (by rw [hj]; simp)

theorem aok_step {F : α → MapF β} {m m' : MRA α β} (h : AOk F m) (hs : StepA F m m') : AOk F m' := by
  cases hs with
  | cancel hc hx =>
    intro j hj
    simp only [List.mem_map] at hj
    obtain ⟨j, hj, rfl⟩ := hj
    obtain ⟨h1, h2, h3, h4, h5, h6⟩ := h j hj
    exact ⟨h1, h2, h3, fun hr => ⟨by simp, (h4 hr).2⟩, h5, h6⟩
  | run x c hc hp hsd =>
    intro j hj
    simp only [List.mem_append, List.mem_singleton] at hj
    rcases hj with hj | rfl
    · exact h j hj
    · refine ⟨?_, ?_, ?_, ?_, ?_, ?_⟩ <;> simp [JobA.new, MapF.after, MapF.calls, accepted]
  | doStep l₁ l₂ j d' hc hj => 
    obtain ⟨h1, h2, h3, h4, h5, h6⟩ := h.mem hj
    exact h.repl hj ⟨h1, h2, h3, h4, h5, h6⟩
  | writeGo l₁ l₂ j v k hc hj hg hw hsn hx =>
    obtain ⟨h1, h2, h3, h4, h5, h6⟩ := h.mem hj
    exact h.repl hj ⟨h1, h2, h3, fun hr => absurd hx (h4 hr).1, h5, h6⟩
  | writeDone l₁ l₂ j v k hc hj hg hw hsn hx =>
    obtain ⟨h1, h2, h3, h4, h5, h6⟩ := h.mem hj
    refine h.repl hj ⟨?_, ?_, ?_, fun _ => ⟨hx, hsn⟩, ?_, ?_⟩
    · simp only [MapF.after_snoc, ← h1, hw, MapF.after]
    · simp [MapF.calls_snoc, ← h1, hw, MapF.calls, h2]
    · simp
    · simp only [List.filter_append]
      conv_lhs => rw [h5]
      simp
    · simpa [MapF.calls_snoc, ← h1, hw, MapF.calls, accepted_append, accepted] using h6
  | writeSent l₁ l₂ j v k c hc hj hg hw hsn hsd =>
    obtain ⟨h1, h2, h3, h4, h5, h6⟩ := h.mem hj
    have hall : j.results.all id = true := by
      cases hr : j.results.all id with
      | true => rfl
      | false => have := (h4 hr).2; rw [hsn] at this; simp at this
    have e1 : k true = (F j.item).after (j.results ++ [true]) := by simp only [MapF.after_snoc, ← h1, hw, MapF.after]
    have e2 : ((F j.item).calls (j.results ++ [true])).length = (j.results ++ [true]).length := by simp [MapF.calls_snoc, ← h1, hw, MapF.calls, h2]
    refine h.repl hj ⟨e1, e2, ?_, ?_, ?_, ?_⟩
    · intro _
      have := h3 hall
      rw [hw] at this
      simp only [MapF.all, List.length_cons] at this
      simp only [List.length_append, List.length_singleton]
      omega
    · simp [hall]
    · simp [filter_all hall, filter_not_all hall]
    · have := MapF.calls_true (F j.item) (j.results ++ [true]) (by simp only [List.all_append, hall]; rfl) e2
      exact ⟨_, this.symm⟩
  | writePanic l₁ l₂ j v k d' hc hj =>
    obtain ⟨h1, h2, h3, h4, h5, h6⟩ := h.mem hj
    exact h.repl hj ⟨h1, h2, h3, h4, h5, h6⟩
  | mapReturn l₁ l₂ j d' hc hj =>
    obtain ⟨h1, h2, h3, h4, h5, h6⟩ := h.mem hj
    exact h.repl hj ⟨h1, h2, h3, h4, h5, h6⟩
  | done l₁ l₂ j o hc hj =>
    obtain ⟨h1, h2, h3, h4, h5, h6⟩ := h.mem hj
    exact h.repl hj ⟨h1, h2, h3, h4, h5, h6⟩
  | release l₁ l₂ j o d' c hc hj =>
    obtain ⟨h1, h2, h3, h4, h5, h6⟩ := h.mem hj
    exact h.repl hj ⟨h1, h2, h3, h4, h5, h6⟩
  | _ => exact h

theorem aok {items : List α} {F : α → MapF β} {size : Nat} {ctx : Option Err} {m : MRA α β} (h : ReachA items F size ctx m) : AOk F m := by
  induction h with
  | init => intro j hj; simp [startA] at hj
  | step _ hs ih => exact aok_step ih hs

theorem abs_split {F : α → MapF β} {m : MRA α β} {l₁ l₂ : List (JobA α β)} {j : JobA α β} (hj : m.jobs = l₁ ++ j :: l₂) :
    (m.abs F).jobs = l₁.map (JobA.abs F) ++ j.abs F :: l₂.map (JobA.abs F) := by
  simp [MRA.abs, hj]

theorem abs_writes {F : α → MapF β} {j : JobA α β} (h : j.results.all id = true) : (j.abs F).writes = j.code.all := by simp only [JobA.abs, h, ↓reduceIte]

/-- How many `Write` calls are still possible, at most. -/
def MRA.calls (F : α → MapF β) (m : MRA α β) : Nat :=
  (m.jobs.map fun j => j.code.depth).sum + (m.pc.items.map fun x => (F x).depth).sum + (m.gen.map fun x => (F x).depth).sum

theorem calls_le {F : α → MapF β} {m m' : MRA α β} (hs : StepA F m m') : m'.calls F ≤ m.calls F := by
  cases hs with
  | cancel hc hx => simp [MRA.calls, Function.comp_def]
  | handOver x xs hc hg hp => simp [MRA.calls, hg, hp, Pc.items]; omega
  | selectDone hc hp hx => simp [MRA.calls, hp, Pc.items]
  | selectClosed hc hp hx => simp [MRA.calls, hp, Pc.items]
  | add x hc hp => simp [MRA.calls, hp, Pc.items]
  | run x c hc hp hsd => simp [MRA.calls, hp, Pc.items, JobA.new]
  | waited hc hp hw => simp [MRA.calls, hp, Pc.items]
  | close hc hp => simp [MRA.calls, hp, Pc.items]
  | doStep l₁ l₂ j d' hc hj => simp [MRA.calls, hj]
  | writeGo l₁ l₂ j v k hc hj => simp [MRA.calls, hj]
  | writeDone l₁ l₂ j v k hc hj hg hw => simp only [MRA.calls, hj, hw, List.map_append, List.map_cons, List.sum_append, List.sum_cons, MapF.depth]; omega
  | writeSent l₁ l₂ j v k c hc hj hg hw => simp only [MRA.calls, hj, hw, List.map_append, List.map_cons, List.sum_append, List.sum_cons, MapF.depth]; omega
  | writePanic l₁ l₂ j v k d' hc hj => simp [MRA.calls, hj]
  | mapReturn l₁ l₂ j d' hc hj => simp [MRA.calls, hj]
  | done l₁ l₂ j o hc hj => simp [MRA.calls, hj]
  | release l₁ l₂ j o d' c hc hj => simp [MRA.calls, hj]
  | _ => exact Nat.le_refl _

/-- Each step is one or several, or (after a refusal) none, of those of `Model.lean`. -/
theorem simA {F : α → MapF β} {m m' : MRA α β} (h : AOk F m) (hs : StepA F m m') : ∃ n, RunN (fun x => (F x).all) n (m.abs F) (m'.abs F) ∧ (1 ≤ n ∨ m'.calls F < m.calls F) := by
  have one : ∀ {m₁ : MR α β}, Step (fun x => (F x).all) (m.abs F) m₁ → m₁ = m'.abs F → ∃ n, RunN (fun x => (F x).all) n (m.abs F) (m'.abs F) ∧ (1 ≤ n ∨ m'.calls F < m.calls F) := by
    rintro _ h rfl; exact ⟨1, (RunN.nil _).snoc h, .inl (Nat.le_refl _)⟩
  cases hs with
  | cancel hc hx =>
    refine one (.cancel (m.abs F) hc hx) ?_
    simp only [MRA.abs, List.map_map]; rfl
  | handOver x xs hc hg hp => exact one (.handOver (m.abs F) x xs hc hg hp) rfl
  | closeSource hc hg hs => exact one (.closeSource (m.abs F) hc hg hs) rfl
  | selectDone hc hp hx => exact one (.selectDone (m.abs F) hc hp hx) rfl
  | selectClosed hc hp hx => exact one (.selectClosed (m.abs F) hc hp hx) rfl
  | add x hc hp => exact one (.add (m.abs F) x hc hp) rfl
  | run x c hc hp hsd =>
    refine one (.run (m.abs F) x c hc hp hsd) ?_
    simp [MRA.abs, JobA.abs, JobA.new, Job.new]
  | doStep l₁ l₂ j d' hc hj hd hx hl hf =>
    refine one (.doStep (m.abs F) _ _ (j.abs F) d' hc (abs_split hj) hd hx hl hf) ?_
    simp [MRA.abs, JobA.abs]
  | writeGo l₁ l₂ j v k hc hj hg hw hsn hx =>
    have hall : j.results.all id = true := by
      cases hr : j.results.all id with
      | true => rfl
      | false => exact absurd hx ((h.mem hj).refused hr).1
    refine one (.writeGo (m.abs F) _ _ (j.abs F) v (k true).all hc (abs_split hj) hg (by rw [abs_writes hall, hw]; rfl) hsn hx) ?_
    simp [MRA.abs, JobA.abs]
  | writeDone l₁ l₂ j v k hc hj hg hw hsn hx =>
    have hlt : ({ m with jobs := l₁ ++ { j with code := k false, results := j.results ++ [false] } :: l₂ } : MRA α β).calls F < m.calls F := by
      simp only [MRA.calls, hj, hw, List.map_append, List.map_cons, List.sum_append, List.sum_cons, MapF.depth]; omega
    cases hr : j.results.all id with
    | true =>
      obtain ⟨n, hn⟩ := refuse_all (fun x => (F x).all) _ (m.abs F) _ _ (j.abs F) hc (abs_split hj) hg rfl hsn hx
      refine ⟨n, ?_, .inr hlt⟩
      have : ({ m with jobs := l₁ ++ { j with code := k false, results := j.results ++ [false] } :: l₂ } : MRA α β).abs F =
          { m.abs F with jobs := l₁.map (JobA.abs F) ++ { j.abs F with writes := [], results := (j.abs F).results ++ List.replicate (j.abs F).writes.length false } :: l₂.map (JobA.abs F) } := by
        have hl := (h.mem hj).len hr
        have e : (F j.item).all.length - j.results.length = j.code.all.length := by omega
        simp only [MRA.abs, List.map_append, List.map_cons]
        congr 3
        simp only [JobA.abs, hr, ↓reduceIte, List.all_append, List.filter_append, filter_all hr]
        simp [e]
      rw [this]; exact hn
    | false =>
      refine ⟨0, ?_, .inr hlt⟩
      have : ({ m with jobs := l₁ ++ { j with code := k false, results := j.results ++ [false] } :: l₂ } : MRA α β).abs F = m.abs F := by
        simp only [MRA.abs, hj, List.map_append, List.map_cons]
        congr 3
        simp only [JobA.abs, hr, List.all_append, List.filter_append]
        simp
      rw [this]; exact .nil _
  | writeSent l₁ l₂ j v k c hc hj hg hw hsn hsd =>
    have hall : j.results.all id = true := by
      cases hr : j.results.all id with
      | true => rfl
      | false => have := ((h.mem hj).refused hr).2; rw [hsn] at this; simp at this
    refine one (.writeSent (m.abs F) _ _ (j.abs F) v (k true).all c hc (abs_split hj) hg (by rw [abs_writes hall, hw]; rfl) hsn hsd) ?_
    have : (j.results ++ [true]).all id = true := by simp only [List.all_append, hall]; rfl
    simp [MRA.abs, JobA.abs, hall, this]
  | writePanic l₁ l₂ j v k d' hc hj hg hw hsn hsd hd hf =>
    have hall : j.results.all id = true := by
      cases hr : j.results.all id with
      | true => rfl
      | false => have := ((h.mem hj).refused hr).2; rw [hsn] at this; simp at this
    refine one (.writePanic (m.abs F) _ _ (j.abs F) v (k true).all d' hc (abs_split hj) hg (by rw [abs_writes hall, hw]; rfl) hsn hsd hd hf) ?_
    simp [MRA.abs, JobA.abs]
  | mapReturn l₁ l₂ j d' hc hj hg hw hd hf =>
    refine one (.mapReturn (m.abs F) _ _ (j.abs F) d' hc (abs_split hj) hg (by simp [JobA.abs, hw, MapF.all]) hd hf) ?_
    simp [MRA.abs, JobA.abs]
  | done l₁ l₂ j o hc hj hl hd =>
    refine one (.done (m.abs F) _ _ (j.abs F) o hc (abs_split hj) hl hd) ?_
    simp [MRA.abs, JobA.abs]; rfl
  | release l₁ l₂ j o d' c hc hj hl hd hr hs ho =>
    refine one (.release (m.abs F) _ _ (j.abs F) o d' c hc (abs_split hj) hl hd hr hs ho) ?_
    simp [MRA.abs, JobA.abs]; rfl
  | waited hc hp hw => exact one (.waited (m.abs F) hc hp hw) rfl
  | close hc hp => exact one (.close (m.abs F) hc hp) rfl
  | consume v c hc hr => exact one (.consume (m.abs F) v c hc hr) rfl
  | consumeEnd hc hd hr => exact one (.consumeEnd (m.abs F) hc hd hr) rfl

theorem reachA {items : List α} {F : α → MapF β} {size : Nat} {ctx : Option Err} {m : MRA α β} (h : ReachA items F size ctx m) :
    Reach items (fun x => (F x).all) size ctx (m.abs F) := by
  induction h with
  | init => exact .init
  | step hr hs ih => obtain ⟨n, hn, _⟩ := simA (aok hr) hs; exact (hn.reach ih).1

/-- A running `mapFunc` writes or ends from one state to the next. -/
def Acts (m m₁ : MR α β) : Prop := ∃ (i : Nat) (j j₁ : Job α β), m.jobs[i]? = some j ∧ m₁.jobs[i]? = some j₁ ∧
  (j₁.writes.length < j.writes.length ∨ (j.d.gor = .running ∧ j₁.d.gor ≠ .running))

theorem acts_of {m m₁ : MR α β} {l₁ l₂ l₁' l₂' : List (Job α β)} {j j₁ : Job α β} (h : m.jobs = l₁ ++ j :: l₂) (h₁ : m₁.jobs = l₁' ++ j₁ :: l₂')
    (hl : l₁.length = l₁'.length) (ha : j₁.writes.length < j.writes.length ∨ (j.d.gor = .running ∧ j₁.d.gor ≠ .running)) : Acts m m₁ :=
  ⟨l₁.length, j, j₁, by simp [h], by rw [hl, h₁]; simp, ha⟩

theorem split_abs {F : α → MapF β} {m : MRA α β} {l₁ l₂ : List (Job α β)} {j : Job α β} (h : (m.abs F).jobs = l₁ ++ j :: l₂) :
    ∃ l₁' l₂' j', m.jobs = l₁' ++ j' :: l₂' ∧ l₁ = l₁'.map (JobA.abs F) ∧ l₂ = l₂'.map (JobA.abs F) ∧ j = j'.abs F := by
  simp only [MRA.abs, List.map_eq_append_iff, List.map_eq_cons_iff] at h
  obtain ⟨a, b, h1, h2, c, d, h3, h4, h5⟩ := h
  exact ⟨a, d, c, by rw [h1, h3], h2.symm, h5.symm, h4.symm⟩

/-- Conversely a step of `Model.lean` is possible here, or `mapFunc` can do something else. -/
theorem backA {F : α → MapF β} {m : MRA α β} (h : AOk F m) {m₁ : MR α β} (hs : Step (fun x => (F x).all) (m.abs F) m₁) :
    ∃ m', StepA F m m' ∧ ((m'.abs F = m₁ ∧ m.jobs.map (·.code) <+: m'.jobs.map (·.code)) ∨ (m'.ctx = m.ctx ∧ m₁.ctx = m.ctx ∧ Acts (m.abs F) m₁)) := by
  cases hs with
  | cancel hc hx =>
    refine ⟨_, .cancel m hc hx, .inl ⟨?_, by simp [Function.comp_def]⟩⟩
    simp only [MRA.abs, List.map_map]; rfl
  | handOver x xs hc hg hp => exact ⟨_, .handOver m x xs hc hg hp, .inl ⟨rfl, List.prefix_refl _⟩⟩
  | closeSource hc hg hs => exact ⟨_, .closeSource m hc hg hs, .inl ⟨rfl, List.prefix_refl _⟩⟩
  | selectDone hc hp hx => exact ⟨_, .selectDone m hc hp hx, .inl ⟨rfl, List.prefix_refl _⟩⟩
  | selectClosed hc hp hx => exact ⟨_, .selectClosed m hc hp hx, .inl ⟨rfl, List.prefix_refl _⟩⟩
  | add x hc hp => exact ⟨_, .add m x hc hp, .inl ⟨rfl, List.prefix_refl _⟩⟩
  | run x c hc hp hsd =>
    refine ⟨_, .run m x c hc hp hsd, .inl ⟨?_, by simp⟩⟩
    simp [MRA.abs, JobA.abs, JobA.new, Job.new]
  | doStep l₁ l₂ j d' hc hj hd hx hl hf =>
    obtain ⟨l₁, l₂, j, hj', rfl, rfl, rfl⟩ := split_abs hj
    refine ⟨_, .doStep m l₁ l₂ j d' hc hj' hd hx hl hf, .inl ⟨?_, by simp [hj']⟩⟩
    simp [MRA.abs, JobA.abs]
  | writeGo l₁ l₂ j v vs hc hj hg hw hsn hx =>
    obtain ⟨l₁, l₂, j, hj', rfl, rfl, rfl⟩ := split_abs hj
    cases hcd : j.code with
    | ret => simp [JobA.abs, hcd, MapF.all] at hw
    | write v k =>
      refine ⟨_, .writeGo m l₁ l₂ j v k hc hj' hg hcd hsn hx, .inl ⟨?_, by simp [hj']⟩⟩
      simp [MRA.abs, JobA.abs]
  | writeDone l₁ l₂ j v vs hc hj hg hw hsn hx =>
    have ha := acts_of (m₁ := { m.abs F with jobs := l₁ ++ { j with writes := vs, results := j.results ++ [false] } :: l₂ }) hj rfl rfl
      (.inl (by simp [hw]))
    obtain ⟨l₁, l₂, j, hj', rfl, rfl, rfl⟩ := split_abs hj
    cases hcd : j.code with
    | ret => simp [JobA.abs, hcd, MapF.all] at hw
    | write v k => exact ⟨_, .writeDone m l₁ l₂ j v k hc hj' hg hcd hsn hx, .inr ⟨rfl, rfl, ha⟩⟩
  | writeSent l₁ l₂ j v vs c hc hj hg hw hsn hsd =>
    have ha := acts_of (m₁ := { m.abs F with collector := c, jobs := l₁ ++ { j with writes := vs, sending := false, results := j.results ++ [true] } :: l₂ })
      hj rfl rfl (.inl (by simp [hw]))
    obtain ⟨l₁, l₂, j, hj', rfl, rfl, rfl⟩ := split_abs hj
    cases hcd : j.code with
    | ret => simp [JobA.abs, hcd, MapF.all] at hw
    | write v' k =>
      have : v' = v := by
        simp only [JobA.abs, hcd, MapF.all] at hw
        split at hw
        · exact (List.cons.inj hw).1
        · simp at hw
      subst this
      exact ⟨_, .writeSent m l₁ l₂ j v' k c hc hj' hg hcd hsn hsd, .inr ⟨rfl, rfl, ha⟩⟩
  | writePanic l₁ l₂ j v vs d' hc hj hg hw hsn hsd hd hf =>
    have ha := acts_of (m₁ := { m.abs F with jobs := l₁ ++ { j with d := d' } :: l₂ })
      hj rfl rfl (.inr ⟨hg, by simp [hf]⟩)
    obtain ⟨l₁, l₂, j, hj', rfl, rfl, rfl⟩ := split_abs hj
    cases hcd : j.code with
    | ret => simp [JobA.abs, hcd, MapF.all] at hw
    | write v' k =>
      have : v' = v := by
        simp only [JobA.abs, hcd, MapF.all] at hw
        split at hw
        · exact (List.cons.inj hw).1
        · simp at hw
      subst this
      exact ⟨_, .writePanic m l₁ l₂ j v' k d' hc hj' hg hcd hsn hsd hd hf, .inr ⟨rfl, rfl, ha⟩⟩
  | mapReturn l₁ l₂ j d' hc hj hg hw hd hf =>
    have ha := acts_of (m₁ := { m.abs F with jobs := l₁ ++ { j with d := d' } :: l₂ })
      hj rfl rfl (.inr ⟨hg, by simp [hf]⟩)
    obtain ⟨l₁, l₂, j, hj', rfl, rfl, rfl⟩ := split_abs hj
    cases hcd : j.code with
    | ret => exact ⟨_, .mapReturn m l₁ l₂ j d' hc hj' hg hcd hd hf, .inr ⟨rfl, rfl, ha⟩⟩
    | write v k =>
      have hr : j.results.all id = false := by
        cases hr : j.results.all id with
        | false => rfl
        | true => simp [JobA.abs, hcd, hr, MapF.all] at hw
      obtain ⟨r1, r2⟩ := (h.mem hj').refused hr
      exact ⟨_, .writeDone m l₁ l₂ j v k hc hj' hg hcd r2 r1, .inr ⟨rfl, rfl, ha⟩⟩
  | done l₁ l₂ j o hc hj hl hd =>
    obtain ⟨l₁, l₂, j, hj', rfl, rfl, rfl⟩ := split_abs hj
    refine ⟨_, .done m l₁ l₂ j o hc hj' hl hd, .inl ⟨?_, by simp [hj']⟩⟩
    simp [MRA.abs, JobA.abs]; rfl
  | release l₁ l₂ j o d' c hc hj hl hd hr hs ho =>
    obtain ⟨l₁, l₂, j, hj', rfl, rfl, rfl⟩ := split_abs hj
    refine ⟨_, .release m l₁ l₂ j o d' c hc hj' hl hd hr hs ho, .inl ⟨?_, by simp [hj']⟩⟩
    simp [MRA.abs, JobA.abs]; rfl
  | waited hc hp hw => exact ⟨_, .waited m hc hp hw, .inl ⟨rfl, List.prefix_refl _⟩⟩
  | close hc hp => exact ⟨_, .close m hc hp, .inl ⟨rfl, List.prefix_refl _⟩⟩
  | consume v c hc hr => exact ⟨_, .consume m v c hc hr, .inl ⟨rfl, List.prefix_refl _⟩⟩
  | consumeEnd hc hd hr => exact ⟨_, .consumeEnd m hc hd hr, .inl ⟨rfl, List.prefix_refl _⟩⟩

end Verif.XMapReduce

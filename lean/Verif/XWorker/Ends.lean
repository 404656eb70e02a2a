import Verif.XWorker.Props
import Verif.XTask.DoEnds
/-!
# A `Worker` runs every function it is given (C116)
-/
namespace Verif.XWorker
open Verif.Go Verif.XTask

variable {E V : Type}

/-! ## Specification -/

/-- Steps that the worker takes by itself: everything but calls of `Run`, contexts becoming done and the ends of `run` and `deferFunc`. -/
inductive Own : Worker E V → Worker E V → Prop where
  /-- a call of `Run` gets a slot and starts its goroutine -/
  | accept (w : Worker E V) (i : Nat) (ctx : Option E) (b : Bool) (c : Chan Unit) : w.crashed = false →
      w.jobs[i]? = some (.pending ctx b) → w.c.send () = .sent c →
      Own w { w with c := c, jobs := w.jobs.set i (.accepted ctx b (doInit ctx) .before 0) }
  | doOwn (w : Worker E V) (i : Nat) (ctx0 : Option E) (b : Bool) (d d' : DoSt E V) (ph : Phase) (n : Nat) : w.crashed = false →
      w.jobs[i]? = some (.accepted ctx0 b d ph n) → DoOwn true d d' → (∀ o, d'.caller = .left o → d.caller = .left o) →
      Own w { w with jobs := w.jobs.set i (.accepted ctx0 b d' ph n) }
  | deferCall (w : Worker E V) (i : Nat) (ctx0 : Option E) (d : DoSt E V) (n : Nat) (o : Out E V) : w.crashed = false →
      w.jobs[i]? = some (.accepted ctx0 false d .before n) → d.caller = .leave o →
      Own w { w with jobs := w.jobs.set i (.accepted ctx0 false d .executing (n + 1)) }
  | deferNil (w : Worker E V) (i : Nat) (ctx0 : Option E) (d : DoSt E V) (n : Nat) (o : Out E V) : w.crashed = false →
      w.jobs[i]? = some (.accepted ctx0 true d .before n) → d.caller = .leave o →
      Own w { w with jobs := w.jobs.set i (.accepted ctx0 true d .panicked (n + 1)), crashed := true }
  | release (w : Worker E V) (i : Nat) (ctx0 : Option E) (b : Bool) (d d' : DoSt E V) (n : Nat) (c : Chan Unit) (o : Out E V) :
      w.crashed = false → w.jobs[i]? = some (.accepted ctx0 b d .after n) → d.caller = .leave o → w.c.recv = .got () c →
      DoStep true d d' → d'.caller = .left o →
      Own w { w with c := c, jobs := w.jobs.set i (.accepted ctx0 b d' .after n), crashed := match o with | .err _ => false | .panic _ => true }

/-- Steps of the program around the worker. -/
inductive Outside : Worker E V → Worker E V → Prop where
  | call (w : Worker E V) (ctx : Option E) (b : Bool) : w.crashed = false → Outside w { w with jobs := w.jobs ++ [.pending ctx b] }
  | cancelPending (w : Worker E V) (i : Nat) (b : Bool) (e : E) : w.crashed = false → w.jobs[i]? = some (.pending none b) →
      Outside w { w with jobs := w.jobs.set i (.pending (some e) b) }
  | cancel (w : Worker E V) (i : Nat) (ctx0 : Option E) (b : Bool) (d : DoSt E V) (ph : Phase) (n : Nat) (e : E) : w.crashed = false →
      w.jobs[i]? = some (.accepted ctx0 b d ph n) → d.ctx = none → Outside w { w with jobs := w.jobs.set i (.accepted ctx0 b { d with ctx := some e } ph n) }
  | runEnds (w : Worker E V) (i : Nat) (ctx0 : Option E) (b : Bool) (d : DoSt E V) (ph : Phase) (n : Nat) (o : Outcome E V) : w.crashed = false →
      w.jobs[i]? = some (.accepted ctx0 b d ph n) → d.gor = .running →
      Outside w { w with jobs := w.jobs.set i (.accepted ctx0 b { d with gor := .finished o } ph n) }
  | deferReturns (w : Worker E V) (i : Nat) (ctx0 : Option E) (b : Bool) (d : DoSt E V) (n : Nat) : w.crashed = false →
      w.jobs[i]? = some (.accepted ctx0 b d .executing n) → Outside w { w with jobs := w.jobs.set i (.accepted ctx0 b d .after n) }
  | deferPanics (w : Worker E V) (i : Nat) (ctx0 : Option E) (b : Bool) (d : DoSt E V) (n : Nat) : w.crashed = false →
      w.jobs[i]? = some (.accepted ctx0 b d .executing n) → Outside w { w with jobs := w.jobs.set i (.accepted ctx0 b d .panicked n), crashed := true }

/-- The slot of the job is in the hands of the user: `run` is executing and its context is not done, `deferFunc` is executing – or `run` has
ended with `runtime.Goexit`, which `Do` does not notice (C77). -/
def Job.busy : Job E V → Bool
  | .pending _ _ => false
  | .accepted _ _ d ph _ => match ph, d.caller, d.ctx, d.gor with
    | .executing, _, _, _ => true
    | _, .wait, none, .running => true
    | _, .wait, none, .ended .exited => true
    | _, _, _, _ => false

/-! ## Proofs -/

/-- The steps of the worker are its own ones and those of the program around it. -/
theorem step_iff {w w' : Worker E V} : WStep w w' ↔ Own w w' ∨ Outside w w' := by
  constructor
  · intro h
    cases h with
    | call ctx b hc => exact .inr (.call _ _ _ hc)
    | cancel i b e hc hj => exact .inr (.cancelPending _ _ _ _ hc hj)
    | accept i ctx b c hc hj hs => exact .inl (.accept _ _ _ _ _ hc hj hs)
    | doStep i ctx0 b d d' ph n hc hj hd hl =>
      cases hd with
      | cancel e hx => exact .inr (.cancel _ _ _ _ _ _ _ _ hc hj hx)
      | finish o hg => exact .inr (.runEnds _ _ _ _ _ _ _ _ hc hj hg)
      | entryDone e h1 h2 => exact .inl (.doOwn _ _ _ _ _ _ _ _ hc hj ⟨.entryDone _ e h1 h2, rfl, id⟩ hl)
      | entryGo h1 h2 => exact .inl (.doOwn _ _ _ _ _ _ _ _ hc hj ⟨.entryGo _ h1 h2, rfl, id⟩ hl)
      | spawn h1 => exact .inl (.doOwn _ _ _ _ _ _ _ _ hc hj ⟨.spawn _ h1, rfl, fun _ => rfl⟩ hl)
      | deliverRet e c h1 h2 => exact .inl (.doOwn _ _ _ _ _ _ _ _ hc hj ⟨.deliverRet _ e c h1 h2, rfl, fun h => by simp [h1] at h⟩ hl)
      | deliverPanic e c h1 h2 => exact .inl (.doOwn _ _ _ _ _ _ _ _ hc hj ⟨.deliverPanic _ e c h1 h2, rfl, fun h => by simp [h1] at h⟩ hl)
      | deliverNone h1 => exact .inl (.doOwn _ _ _ _ _ _ _ _ hc hj ⟨.deliverNone _ h1, rfl, fun h => by simp [h1] at h⟩ hl)
      | recvPanic p c h1 h2 => exact .inl (.doOwn _ _ _ _ _ _ _ _ hc hj ⟨.recvPanic _ p c h1 h2, rfl, id⟩ hl)
      | recvDone e c h1 h2 => exact .inl (.doOwn _ _ _ _ _ _ _ _ hc hj ⟨.recvDone _ e c h1 h2, rfl, id⟩ hl)
      | recvCtx e h1 h2 => exact .inl (.doOwn _ _ _ _ _ _ _ _ hc hj ⟨.recvCtx _ e h1 h2, rfl, id⟩ hl)
      | leave o h1 => exact .inl (.doOwn _ _ _ _ _ _ _ _ hc hj ⟨.leave _ o h1, rfl, id⟩ hl)
    | deferCall i ctx0 d n o hc hj hl => exact .inl (.deferCall _ _ _ _ _ _ hc hj hl)
    | deferNil i ctx0 d n o hc hj hl => exact .inl (.deferNil _ _ _ _ _ _ hc hj hl)
    | deferPanic i ctx0 b d n hc hj => exact .inr (.deferPanics _ _ _ _ _ _ hc hj)
    | deferReturn i ctx0 b d n hc hj => exact .inr (.deferReturns _ _ _ _ _ _ hc hj)
    | release i ctx0 b d d' n c o hc hj hl hr hd hl' => exact .inl (.release _ _ _ _ _ _ _ _ _ hc hj hl hr hd hl')
  · rintro (h | h)
    · cases h with
      | accept i ctx b c hc hj hs => exact .accept _ _ _ _ _ hc hj hs
      | doOwn i ctx0 b d d' ph n hc hj hd hl => exact .doStep _ _ _ _ _ _ _ _ hc hj hd.1 hl
      | deferCall i ctx0 d n o hc hj hl => exact .deferCall _ _ _ _ _ _ hc hj hl
      | deferNil i ctx0 d n o hc hj hl => exact .deferNil _ _ _ _ _ _ hc hj hl
      | release i ctx0 b d d' n c o hc hj hl hr hd hl' => exact .release _ _ _ _ _ _ _ _ _ hc hj hl hr hd hl'
    · cases h with
      | call ctx b hc => exact .call _ _ _ hc
      | cancelPending i b e hc hj => exact .cancel _ _ _ _ hc hj
      | cancel i ctx0 b d ph n e hc hj hx => exact .doStep _ _ _ _ _ _ _ _ hc hj (.cancel _ e hx) fun _ h => h
      | runEnds i ctx0 b d ph n o hc hj hg => exact .doStep _ _ _ _ _ _ _ _ hc hj (.finish _ o hg) fun _ h => h
      | deferReturns i ctx0 b d n hc hj => exact .deferReturn _ _ _ _ _ _ hc hj
      | deferPanics i ctx0 b d n hc hj => exact .deferPanic _ _ _ _ _ _ hc hj

/-- Proof only: part of a measure; models no code. -/
def Phase.weight : Phase → Nat
  | .before => 2
  | .executing => 1
  | _ => 0

/-- Proof only: part of a measure; models no code. -/
def Job.weight : Job E V → Nat
  | .pending ctx _ => 12 + (if ctx.isSome then 0 else 1)
  | .accepted _ _ d ph _ => d.weight + ph.weight

/-- A bound on the number of steps left without new calls. -/
def Worker.weight (w : Worker E V) : Nat := (w.jobs.map Job.weight).sum + if w.crashed then 0 else 1

theorem sum_set {α : Type} (f : α → Nat) : ∀ (l : List α) (i : Nat) (a b : α), l[i]? = some a → ((l.set i b).map f).sum + f a = (l.map f).sum + f b
  | [], i, a, b, h => by simp at h
  | x :: l, 0, a, b, h => by
    simp only [List.getElem?_cons_zero, Option.some.injEq] at h
    subst h
    simp only [List.set_cons_zero, List.map_cons, List.sum_cons]
    omega
  | x :: l, i + 1, a, b, h => by
    simp only [List.getElem?_cons_succ] at h
    have := sum_set f l i a b h
    simp only [List.set_cons_succ, List.map_cons, List.sum_cons]
    omega

theorem weight_lt {w w' : Worker E V} (h : WStep w w') (hn : w'.jobs.length = w.jobs.length) : w'.weight < w.weight := by
  cases h with
  | call ctx b hc => simp at hn
  | cancel i b e hc hj =>
    have := sum_set Job.weight _ _ _ (.pending (some e) b) hj
    simp only [Job.weight, Option.isSome_some, Option.isSome_none, Bool.false_eq_true, if_true, if_false] at this
    simp only [Worker.weight]; omega
  | accept i ctx b c hc hj hs =>
    have := sum_set Job.weight _ _ _ (.accepted ctx b (doInit ctx) .before 0) hj
    simp only [Job.weight, doInit, DoSt.weight, Caller.weight, Gor.weight, Phase.weight] at this
    simp only [Worker.weight, doInit]
    cases ctx <;> simp only [Option.isSome_some, Option.isSome_none, Bool.false_eq_true, if_true, if_false] at this <;> omega
  | doStep i ctx0 b d d' ph n hc hj hd hl =>
    have := sum_set Job.weight _ _ _ (.accepted ctx0 b d' ph n) hj
    have h2 := XTask.weight_lt hd
    simp only [Job.weight] at this
    simp only [Worker.weight]; omega
  | deferCall i ctx0 d n o hc hj hl =>
    have := sum_set Job.weight _ _ _ (.accepted ctx0 false d .executing (n + 1)) hj
    simp only [Job.weight, Phase.weight] at this
    simp only [Worker.weight]; omega
  | deferNil i ctx0 d n o hc hj hl =>
    have := sum_set Job.weight _ _ _ (.accepted ctx0 true d .panicked (n + 1)) hj
    simp only [Job.weight, Phase.weight] at this
    simp only [Worker.weight, hc, Bool.false_eq_true, if_true, if_false]; omega
  | deferPanic i ctx0 b d n hc hj =>
    have := sum_set Job.weight _ _ _ (.accepted ctx0 b d .panicked n) hj
    simp only [Job.weight, Phase.weight] at this
    simp only [Worker.weight, hc, Bool.false_eq_true, if_true, if_false]; omega
  | deferReturn i ctx0 b d n hc hj =>
    have := sum_set Job.weight _ _ _ (.accepted ctx0 b d .after n) hj
    simp only [Job.weight, Phase.weight] at this
    simp only [Worker.weight]; omega
  | release i ctx0 b d d' n c o hc hj hl hr hd hl' =>
    have := sum_set Job.weight _ _ _ (.accepted ctx0 b d' .after n) hj
    have h2 := XTask.weight_lt hd
    simp only [Job.weight] at this
    simp only [Worker.weight, hc, Bool.false_eq_true, if_false]
    cases o <;> simp only [Bool.false_eq_true, if_true, if_false] <;> omega

/-! ## Theorems -/

/-- **C116.** Without new calls every execution of a worker ends, whatever the schedule. -/
theorem C116_ends (w : Worker E V) : Acc (fun w' w => WStep w w' ∧ w'.jobs.length = w.jobs.length) w := by
  have : ∀ n, ∀ w : Worker E V, w.weight < n → Acc (fun w' w => WStep w w' ∧ w'.jobs.length = w.jobs.length) w := by
    intro n
    induction n with
    | zero => intro m h; omega
    | succ n ih => exact fun m h => ⟨_, fun m' hs => ih m' (by have := weight_lt hs.1 hs.2; omega)⟩
  exact this _ w (Nat.lt_succ_self _)

/-- **C116.** When the worker can do nothing by itself, every function it has accepted is done with – `run` has ended or its context is done,
`deferFunc` has been called and has returned, and the slot is free – or its slot is in the hands of the user. -/
theorem C116_accepted {size : Int} {w : Worker E V} (h : WReach size w) (hc : w.crashed = false) (hs : ∀ w', ¬ Own w w') {i : Nat} {ctx0 : Option E}
    {b : Bool} {d : DoSt E V} {ph : Phase} {n : Nat} (hj : w.jobs[i]? = some (.accepted ctx0 b d ph n)) :
    (Job.accepted ctx0 b d ph n).busy = true ∨
    (ph = .after ∧ n = 1 ∧ ∃ e, d.caller = .left (.err e) ∧ (d.ctx = some e ∨ d.gor = .ended (.returned e))) := by
  have hi := w_inv h
  have hm := List.mem_of_getElem? hj
  obtain ⟨g1, g2, g3, g4⟩ := hi.jobs _ hm
  cases hcal : d.caller with
  | left o =>
    have hph := g4 o hcal
    subst hph
    refine .inr ⟨rfl, (g3 (by simp)).1, ?_⟩
    cases o with
    | err e => exact ⟨e, rfl, C07_result g1 _ hcal⟩
    | panic p => exact absurd ((C78_exact h).mpr ⟨_, _, _, _, _, hm, .inr ⟨p, hcal⟩⟩) (by simp [hc])
  | leave o =>
    cases ph with
    | before =>
      cases b with
      | false => exact absurd (.deferCall w i ctx0 d n o hc hj hcal) (hs _)
      | true => exact absurd (.deferNil w i ctx0 d n o hc hj hcal) (hs _)
    | executing => exact .inl rfl
    | after =>
      have hpos : 0 < w.jobs.countP Job.occupies := List.countP_pos_iff.mpr ⟨_, hm, by simp [Job.occupies, hcal]⟩
      rw [← hi.len] at hpos
      cases hbuf : w.c.buf with
      | nil => rw [hbuf] at hpos; simp at hpos
      | cons u t => exact absurd (.release w i ctx0 b d _ n { w.c with buf := t } o hc hj hcal (by simp [Chan.recv, hbuf]) (.leave d o hcal) rfl) (hs _)
    | panicked => exact absurd ((C78_exact h).mpr ⟨_, _, _, _, _, hm, .inl rfl⟩) (by simp [hc])
  | entry =>
    exfalso
    cases hx : d.ctx with
    | none => exact hs _ (.doOwn w i ctx0 b d _ ph n hc hj ⟨.entryGo d hcal hx, rfl, id⟩ (by simp))
    | some e => exact hs _ (.doOwn w i ctx0 b d _ ph n hc hj ⟨.entryDone d e hcal hx, rfl, id⟩ (by simp))
  | spawn => exact absurd (.doOwn w i ctx0 b d _ ph n hc hj ⟨.spawn d hcal, rfl, fun _ => rfl⟩ (by simp)) (hs _)
  | wait =>
    have hph : ph = .before := Classical.byContradiction fun hp => by
      obtain ⟨o, ho | ho⟩ := (g3 hp).2 <;> rw [hcal] at ho <;> simp at ho
    subst hph
    have hd : ∀ d', DoOwn true d d' → ∃ o, d'.caller = .left o := fun d' hd' => Classical.byContradiction fun hno =>
      hs _ (.doOwn w i ctx0 b d d' .before n hc hj hd' fun o ho => absurd ⟨o, ho⟩ hno)
    have hstuck : ∀ d', ¬ DoOwn true d d' := by
      intro d' hd'
      obtain ⟨o, ho⟩ := hd d' hd'
      obtain ⟨hst, -, -⟩ := hd'
      cases hst <;> simp_all
    rcases (C77_exact g1 hstuck).1 with ⟨o, ho⟩ | ⟨_, h2, h3⟩
    · rw [hcal] at ho; simp at ho
    · left
      rcases h3 with h3 | h3 <;> simp [Job.busy, hcal, h2, h3]

/-- **C116.** A call of `Run` waits only if all slots are in the hands of the user. -/
theorem C116_waits {size : Int} {w : Worker E V} (h : WReach size w) (hc : w.crashed = false) (hs : ∀ w', ¬ Own w w') {i : Nat} {ctx : Option E}
    {b : Bool} (hj : w.jobs[i]? = some (.pending ctx b)) : (w.jobs.countP Job.busy : Int) = size := by
  have hsl := C14_slots h
  have hge : ¬ (w.jobs.countP Job.occupies : Int) < size := fun hlt => by
    obtain ⟨c, hc'⟩ := (C14_accept_iff h).mpr hlt
    exact hs _ (.accept w i ctx b c hc hj hc')
  have : w.jobs.countP Job.busy = w.jobs.countP Job.occupies := by
    refine List.countP_congr fun j hjm => ?_
    cases j with
    | pending => simp [Job.busy, Job.occupies]
    | accepted ctx0 b d ph n =>
      obtain ⟨k, hk⟩ := List.getElem?_of_mem hjm
      obtain ⟨g1, g2, g3, g4⟩ := (w_inv h).jobs _ hjm
      rcases C116_accepted h hc hs hk with hb | ⟨rfl, _, e, he, _⟩
      · simp only [hb, true_iff]
        cases hcal : d.caller with
        | left o => rw [g4 o hcal] at hb; simp [Job.busy, hcal] at hb
        | _ => simp [Job.occupies, hcal]
      · simp [Job.busy, Job.occupies, he]
  rw [this]; omega

/-- **C116.** If every function ends, every function gets its turn: when the worker can do nothing by itself, no `run` and no `deferFunc` is
executing, and none has ended its goroutine (`runtime.Goexit`), then every call of `Run` on a worker with at least one slot has returned, its
function was called and has returned unless the context was done, and its `deferFunc` was called once and has returned. -/
theorem C116_all_done {size : Int} {w : Worker E V} (h : WReach size w) (hsize : 1 ≤ size) (hc : w.crashed = false) (hs : ∀ w', ¬ Own w w')
    (hg : ∀ ctx0 b d ph n, .accepted ctx0 b d ph n ∈ w.jobs → d.gor ≠ .running ∧ d.gor ≠ .ended .exited ∧ ph ≠ .executing)
    {j : Job E V} (hj : j ∈ w.jobs) :
    ∃ ctx0 b d e, j = .accepted ctx0 b d .after 1 ∧ d.caller = .left (.err e) ∧ (d.ctx = some e ∨ d.started = true ∧ d.gor = .ended (.returned e)) := by
  have hfree : ∀ x ∈ w.jobs, x.busy = false := by
    intro x hx
    cases x with
    | pending => rfl
    | accepted ctx0 b d ph n =>
      obtain ⟨h1, h2, h3⟩ := hg _ _ _ _ _ hx
      refine Bool.eq_false_iff.mpr fun hb => ?_
      simp only [Job.busy] at hb
      split at hb
      · exact h3 rfl
      · exact h1 (by assumption)
      · exact h2 (by assumption)
      · simp at hb
  obtain ⟨i, hi⟩ := List.getElem?_of_mem hj
  cases j with
  | pending ctx b =>
    exfalso
    have h1 := C116_waits h hc hs hi
    have : w.jobs.countP Job.busy = 0 := List.countP_eq_zero.mpr fun x hx => by simp [hfree x hx]
    omega
  | accepted ctx0 b d ph n =>
    rcases C116_accepted h hc hs hi with hb | ⟨rfl, rfl, e, h1, h2⟩
    · simp [hfree _ hj] at hb
    · refine ⟨ctx0, b, d, e, rfl, h1, h2.imp_right fun h2 => ⟨?_, h2⟩⟩
      obtain ⟨g1, _⟩ := (w_inv h).jobs _ hj
      exact ((do_inv g1).hasStarted (by rw [h2]; simp)).1

/-! ## Examples -/

/-- The worker of `demoBusy`: one function runs, another call waits. -/
theorem demoBusy_quiet : ∀ w', ¬ Own (⟨⟨[()], 1, false⟩, [.accepted none false (runningJob none) .before 0, .pending none false], false⟩ : Worker Nat Nat) w' := by
  intro w' ho
  cases ho with
  | accept i ctx b c hc hj hs => simp [Chan.send] at hs
  | doOwn i ctx0 b d d' ph n hc hj hd hl =>
    match i, hj with
    | 0, hj =>
      simp only [List.getElem?_cons_zero, Option.some.injEq, Job.accepted.injEq] at hj
      obtain ⟨-, -, rfl, -⟩ := hj
      obtain ⟨h1, h2, h3⟩ := hd
      cases h1 <;> simp_all [Chan.recv, Chan.make, runningJob]
    | 1, hj => simp at hj
    | n + 2, hj => simp at hj
  | deferCall i ctx0 d n o hc hj hl =>
    match i, hj with
    | 0, hj => simp [runningJob] at hj; obtain ⟨_, rfl, _⟩ := hj; simp at hl
    | 1, hj => simp at hj
    | n + 2, hj => simp at hj
  | deferNil i ctx0 d n o hc hj hl =>
    match i, hj with
    | 0, hj => simp at hj
    | 1, hj => simp at hj
    | n + 2, hj => simp at hj
  | release i ctx0 b d d' n c o hc hj hl hr hd hl' =>
    match i, hj with
    | 0, hj => simp at hj
    | 1, hj => simp at hj
    | n + 2, hj => simp at hj

example := C116_accepted demoBusy rfl demoBusy_quiet (i := 0) rfl
example := C116_waits demoBusy rfl demoBusy_quiet (i := 1) rfl

/-- Two functions on a worker of size 1, one after the other; the second one with a context that is done. -/
theorem demoTwo : WReach 1 (⟨⟨[], 1, false⟩, [.accepted none false
      ⟨none, Chan.make 1, Chan.make 1, .left (.err 3), .ended (.returned 3), 1, true⟩ .after 1, .accepted (some 9) false
      ⟨some 9, Chan.make 1, Chan.make 1, .left (.err 9), .none, 1, false⟩ .after 1], false⟩ : Worker Nat Nat) := by
  have h9 := demoAfter.step (.release _ 0 none false _ _ 1 _ (.err 3) rfl rfl rfl rfl (.leave _ (.err 3) rfl) rfl)
  have h10 := h9.step (.call _ (some 9) false rfl)
  have h11 := h10.step (.accept _ 1 (some 9) false _ rfl rfl rfl)
  have h12 := h11.step (.doStep _ 1 (some 9) false _ _ .before 0 rfl rfl (.entryDone _ 9 rfl rfl) (by simp))
  have h13 := h12.step (.deferCall _ 1 (some 9) _ 0 (.err 9) rfl rfl rfl)
  have h14 := h13.step (.deferReturn _ 1 (some 9) false _ 1 rfl rfl)
  exact h14.step (.release _ 1 (some 9) false _ _ 1 _ (.err 9) rfl rfl rfl rfl (.leave _ (.err 9) rfl) rfl)

theorem demoTwo_quiet : ∀ w', ¬ Own (⟨⟨[], 1, false⟩, [.accepted none false
      ⟨none, Chan.make 1, Chan.make 1, .left (.err 3), .ended (.returned 3), 1, true⟩ .after 1, .accepted (some 9) false
      ⟨some 9, Chan.make 1, Chan.make 1, .left (.err 9), .none, 1, false⟩ .after 1], false⟩ : Worker Nat Nat) w' := by
  intro w' ho
  cases ho with
  | accept i ctx b c hc hj hs => match i, hj with
    | 0, hj => simp at hj
    | 1, hj => simp at hj
    | n + 2, hj => simp at hj
  | doOwn i ctx0 b d d' ph n hc hj hd hl => match i, hj with
    | 0, hj =>
      simp only [List.getElem?_cons_zero, Option.some.injEq, Job.accepted.injEq] at hj
      obtain ⟨-, -, rfl, -⟩ := hj
      obtain ⟨h1, h2, h3⟩ := hd
      cases h1 <;> simp_all [Chan.recv, Chan.make]
    | 1, hj =>
      simp only [List.getElem?_cons_succ, List.getElem?_cons_zero, Option.some.injEq, Job.accepted.injEq] at hj
      obtain ⟨-, -, rfl, -⟩ := hj
      obtain ⟨h1, h2, h3⟩ := hd
      cases h1 <;> simp_all [Chan.recv, Chan.make]
    | n + 2, hj => simp at hj
  | deferCall i ctx0 d n o hc hj hl => match i, hj with
    | 0, hj => simp at hj
    | 1, hj => simp at hj
    | n + 2, hj => simp at hj
  | deferNil i ctx0 d n o hc hj hl => match i, hj with
    | 0, hj => simp at hj
    | 1, hj => simp at hj
    | n + 2, hj => simp at hj
  | release i ctx0 b d d' n c o hc hj hl hr hd hl' => simp [Chan.recv] at hr

example := C116_all_done demoTwo (by decide) rfl demoTwo_quiet (by
  intro _ _ _ _ _ h
  simp only [List.mem_cons, Job.accepted.injEq, List.not_mem_nil, or_false] at h
  rcases h with ⟨_, _, rfl, rfl, _⟩ | ⟨_, _, rfl, rfl, _⟩ <;> simp) (List.mem_cons_self ..)

end Verif.XWorker

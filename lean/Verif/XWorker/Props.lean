import Verif.XWorker.Model
import Verif.XTask.DoProps
/-! # Property theorems for `Worker` (C13, C14, C78) -/
namespace Verif.XWorker
open Verif.Go Verif.XTask

variable {E V : Type}

/-! ## Specification -/

/-- The call was accepted and its goroutine has not ended: it occupies a slot. -/
def Job.occupies : Job E V → Bool
  | .pending _ _ => false
  | .accepted _ _ d _ _ => match d.caller with
    | .left _ => false
    | _ => true

/-- `run` is executing. -/
def Job.executing : Job E V → Bool
  | .pending _ _ => false
  | .accepted _ _ d _ _ => match d.gor with
    | .running => true
    | _ => false

/-- `run` is executing and the context of the call is not done. -/
def Job.executingAlive : Job E V → Bool
  | .pending _ _ => false
  | .accepted _ _ d _ _ => match d.gor, d.ctx with
    | .running, none => true
    | _, _ => false

/-! ## Invariant -/

theorem countP_set {α : Type} (p : α → Bool) : ∀ (l : List α) (i : Nat) (a b : α), l[i]? = some a →
    (l.set i b).countP p + (if p a then 1 else 0) = l.countP p + (if p b then 1 else 0)
  | [], i, a, b, h => by simp at h
  | x :: l, 0, a, b, h => by
    simp only [List.getElem?_cons_zero, Option.some.injEq] at h
    subst h
    simp only [List.set_cons_zero, List.countP_cons]
    omega
  | x :: l, i + 1, a, b, h => by
    simp only [List.getElem?_cons_succ] at h
    have := countP_set p l i a b h
    simp only [List.set_cons_succ, List.countP_cons]
    omega

theorem mem_set {α : Type} {l : List α} {i : Nat} {b x : α} (h : x ∈ l.set i b) : x ∈ l ∨ x = b := by
  rcases List.mem_or_eq_of_mem_set h with h | h
  · exact Or.inl h
  · exact Or.inr h

/-- Proof only: part of an invariant or simulation; models no code. -/
def JobInv : Job E V → Prop
  | .pending _ _ => True
  | .accepted ctx0 _ d ph n => DoReach true ctx0 d ∧
    (ph = .before → n = 0) ∧ (ph ≠ .before → n = 1 ∧ ∃ o, d.caller = .leave o ∨ d.caller = .left o) ∧
    (∀ o, d.caller = .left o → ph = .after)

/-- Proof only: part of an invariant or simulation; models no code. -/
structure WInv (size : Int) (w : Worker E V) : Prop where
  nonneg : 0 ≤ size
  cap : w.c.cap = size.toNat ∧ w.c.closed = false
  len : w.c.buf.length = w.jobs.countP Job.occupies
  le : w.c.buf.length ≤ size.toNat
  jobs : ∀ j ∈ w.jobs, JobInv j

theorem caller_stable {d d' : DoSt E V} (h : DoStep true d d') (o : Out E V) (hd : d.caller = .leave o) :
    d'.caller = .leave o ∨ d'.caller = .left o := by
  cases h <;> simp_all

theorem left_stable {d d' : DoSt E V} (h : DoStep true d d') (o : Out E V) (hd : d.caller = .left o) : d'.caller = .left o := by
  cases h <;> simp_all

theorem w_inv {size : Int} {w : Worker E V} (h : WReach size w) : WInv size w := by
  induction h with
  | @init w hw =>
    unfold newWorker at hw
    by_cases hs : size < 0
    · simp [hs] at hw
    · simp only [hs, if_false, Option.some.injEq] at hw
      subst hw
      exact ⟨by omega, ⟨rfl, rfl⟩, by simp [Chan.make], by simp [Chan.make], by simp⟩
  | @step w w' _ hs ih =>
    obtain ⟨h0, ⟨h1, h2⟩, h3, h4, h5⟩ := ih
    cases hs with
    | call ctx b hc =>
      refine ⟨h0, ⟨h1, h2⟩, ?_, h4, ?_⟩
      · simp [List.countP_cons, Job.occupies, h3]
      · intro j hj
        simp only [List.mem_append, List.mem_singleton] at hj
        rcases hj with hj | rfl
        · exact h5 j hj
        · trivial
    | cancel i b e hc hj =>
      refine ⟨h0, ⟨h1, h2⟩, ?_, h4, ?_⟩
      · have := countP_set Job.occupies w.jobs i _ (.pending (some e) b) hj
        simp [Job.occupies] at this
        show w.c.buf.length = List.countP _ (w.jobs.set _ _)
        omega
      · intro j hj'
        rcases mem_set hj' with hj' | rfl
        · exact h5 j hj'
        · trivial
    | accept i ctx b c hc hj hsend =>
      have hlt : w.c.buf.length < size.toNat ∧ c = { w.c with buf := w.c.buf ++ [()] } := by
        simp only [Chan.send, h1, h2, Bool.false_eq_true, if_false] at hsend
        split at hsend
        · simp only [Chan.SendRes.sent.injEq] at hsend; exact ⟨by assumption, hsend.symm ▸ by simp [h1, h2]⟩
        · simp at hsend
      obtain ⟨hlt, rfl⟩ := hlt
      refine ⟨h0, ⟨h1, h2⟩, ?_, ?_, ?_⟩
      · have := countP_set Job.occupies w.jobs i _ (.accepted ctx b (doInit ctx) .before 0) hj
        simp [Job.occupies, doInit] at this
        show (w.c.buf ++ [()]).length = List.countP _ (w.jobs.set _ _)
        simp [doInit]; omega
      · simp; omega
      · intro j hj'
        rcases mem_set hj' with hj' | rfl
        · exact h5 j hj'
        · exact ⟨.init, fun _ => rfl, fun h => absurd rfl h, fun o h => by simp [doInit] at h⟩
    | doStep i ctx0 b d d' ph n hc hj hd hleft =>
      obtain ⟨g1, g2, g3, g4⟩ := h5 _ (List.mem_of_getElem? hj)
      refine ⟨h0, ⟨h1, h2⟩, ?_, h4, ?_⟩
      · have := countP_set Job.occupies w.jobs i _ (.accepted ctx0 b d' ph n) hj
        have hoc : (Job.accepted ctx0 b d' ph n).occupies = (Job.accepted ctx0 b d ph n).occupies := by
          cases hcd : d.caller with
          | left o => simp [Job.occupies, hcd, left_stable hd o hcd]
          | _ =>
            cases hcd' : d'.caller with
            | left o => have := hleft o hcd'; rw [hcd] at this; simp at this
            | _ => simp [Job.occupies, hcd, hcd']
        rw [hoc] at this
        show w.c.buf.length = List.countP _ (w.jobs.set _ _)
        omega
      · intro j hj'
        rcases mem_set hj' with hj' | rfl
        · exact h5 j hj'
        · refine ⟨.step g1 hd, g2, fun hp => ⟨(g3 hp).1, ?_⟩, fun o ho => g4 o (hleft o ho)⟩
          obtain ⟨o, ho | ho⟩ := (g3 hp).2
          · exact ⟨o, caller_stable hd o ho⟩
          · exact ⟨o, Or.inr (left_stable hd o ho)⟩
    | deferCall i ctx0 d n o hc hj hl =>
      obtain ⟨g1, g2, g3, g4⟩ := h5 _ (List.mem_of_getElem? hj)
      refine ⟨h0, ⟨h1, h2⟩, ?_, h4, ?_⟩
      · have := countP_set Job.occupies w.jobs i _ (.accepted ctx0 false d .executing (n + 1)) hj
        simp [Job.occupies, hl] at this
        show w.c.buf.length = List.countP _ (w.jobs.set _ _)
        omega
      · intro j hj'
        rcases mem_set hj' with hj' | rfl
        · exact h5 j hj'
        · refine ⟨g1, fun h => by simp at h, fun _ => ⟨by rw [g2 rfl], o, Or.inl hl⟩, fun o' ho' => by rw [hl] at ho'; simp at ho'⟩
    | deferNil i ctx0 d n o hc hj hl =>
      obtain ⟨g1, g2, g3, g4⟩ := h5 _ (List.mem_of_getElem? hj)
      refine ⟨h0, ⟨h1, h2⟩, ?_, h4, ?_⟩
      · have := countP_set Job.occupies w.jobs i _ (.accepted ctx0 true d .panicked (n + 1)) hj
        simp [Job.occupies, hl] at this
        show w.c.buf.length = List.countP _ (w.jobs.set _ _)
        omega
      · intro j hj'
        rcases mem_set hj' with hj' | rfl
        · exact h5 j hj'
        · refine ⟨g1, fun h => by simp at h, fun _ => ⟨by rw [g2 rfl], o, Or.inl hl⟩, fun o' ho' => by rw [hl] at ho'; simp at ho'⟩
    | deferPanic i ctx0 b d n hc hj =>
      obtain ⟨g1, g2, g3, g4⟩ := h5 _ (List.mem_of_getElem? hj)
      refine ⟨h0, ⟨h1, h2⟩, ?_, h4, ?_⟩
      · have := countP_set Job.occupies w.jobs i _ (.accepted ctx0 b d .panicked n) hj
        have hoc : (Job.accepted ctx0 b d .panicked n).occupies = (Job.accepted ctx0 b d .executing n).occupies := rfl
        rw [hoc] at this
        show w.c.buf.length = List.countP _ (w.jobs.set _ _)
        omega
      · intro j hj'
        rcases mem_set hj' with hj' | rfl
        · exact h5 j hj'
        · exact ⟨g1, fun h => by simp at h, fun _ => g3 (by simp), fun o ho => by have := g4 o ho; simp at this⟩
    | deferReturn i ctx0 b d n hc hj =>
      obtain ⟨g1, g2, g3, g4⟩ := h5 _ (List.mem_of_getElem? hj)
      refine ⟨h0, ⟨h1, h2⟩, ?_, h4, ?_⟩
      · have := countP_set Job.occupies w.jobs i _ (.accepted ctx0 b d .after n) hj
        have hoc : (Job.accepted ctx0 b d .after n).occupies = (Job.accepted ctx0 b d .executing n).occupies := rfl
        rw [hoc] at this
        show w.c.buf.length = List.countP _ (w.jobs.set _ _)
        omega
      · intro j hj'
        rcases mem_set hj' with hj' | rfl
        · exact h5 j hj'
        · exact ⟨g1, fun h => by simp at h, fun _ => g3 (by simp), fun _ _ => rfl⟩
    | release i ctx0 b d d' n c o hc hj hl hr hd hl' =>
      obtain ⟨g1, g2, g3, g4⟩ := h5 _ (List.mem_of_getElem? hj)
      have hbuf : ∃ t, w.c.buf = () :: t ∧ c = { w.c with buf := t } := by
        unfold Chan.recv at hr
        split at hr
        · rename_i t heq
          simp only [Chan.RecvRes.got.injEq] at hr
          exact ⟨_, heq, hr.2.symm⟩
        · split at hr <;> simp at hr
      obtain ⟨t, ht, rfl⟩ := hbuf
      refine ⟨h0, ⟨h1, h2⟩, ?_, ?_, ?_⟩
      · have := countP_set Job.occupies w.jobs i _ (.accepted ctx0 b d' .after n) hj
        simp [Job.occupies, hl, hl'] at this
        rw [ht] at h3
        simp only [List.length_cons] at h3
        show t.length = List.countP _ (w.jobs.set _ _)
        omega
      · rw [ht] at h4; simp at h4; show t.length ≤ _; omega
      · intro j hj'
        rcases mem_set hj' with hj' | rfl
        · exact h5 j hj'
        · exact ⟨.step g1 hd, g2, fun _ => ⟨(g3 (by simp)).1, o, Or.inr hl'⟩, fun _ _ => rfl⟩

/-! ## Theorems -/

/-- A run function that executes, for the witnesses below. -/
def runningJob (ctx : Option Nat) : DoSt Nat Nat := ⟨ctx, Chan.make 1, Chan.make 1, .wait, .running, 0, true⟩

/-- A worker of size 1: one function executes, another call waits for the slot. -/
theorem demoBusy : WReach 1 (⟨⟨[()], 1, false⟩, [.accepted none false (runningJob none) .before 0, .pending none false], false⟩ : Worker Nat Nat) := by
  have h0 : WReach 1 (⟨Chan.make 1, [], false⟩ : Worker Nat Nat) := .init rfl
  have h1 := h0.step (.call _ none false rfl)
  have h2 := h1.step (.accept _ 0 none false _ rfl rfl rfl)
  have h3 := h2.step (.doStep _ 0 none false _ _ .before 0 rfl rfl (.entryGo _ rfl rfl) (by simp))
  have h4 := h3.step (.doStep _ 0 none false _ _ .before 0 rfl rfl (.spawn _ rfl) (by simp))
  exact h4.step (.call _ none false rfl)

/-- A worker of size 1: the function has returned 3, `deferFunc` has been called and has returned, the slot is still occupied. -/
theorem demoAfter : WReach 1 (⟨⟨[()], 1, false⟩, [.accepted none false
    ⟨none, Chan.make 1, Chan.make 1, .leave (.err 3), .ended (.returned 3), 0, true⟩ .after 1], false⟩ : Worker Nat Nat) := by
  have h0 : WReach 1 (⟨Chan.make 1, [], false⟩ : Worker Nat Nat) := .init rfl
  have h1 := h0.step (.call _ none false rfl)
  have h2 := h1.step (.accept _ 0 none false _ rfl rfl rfl)
  have h3 := h2.step (.doStep _ 0 none false _ _ .before 0 rfl rfl (.entryGo _ rfl rfl) (by simp))
  have h4 := h3.step (.doStep _ 0 none false _ _ .before 0 rfl rfl (.spawn _ rfl) (by simp))
  have h5 := h4.step (.doStep _ 0 none false _ _ .before 0 rfl rfl (.finish _ (.returned 3) rfl) (by simp))
  have h6 := h5.step (.doStep _ 0 none false _ _ .before 0 rfl rfl (.deliverRet _ 3 _ rfl rfl) (by simp))
  have h7 := h6.step (.doStep _ 0 none false _ _ .before 0 rfl rfl (.recvDone _ 3 _ rfl rfl) (by simp))
  have h8 := h7.step (.deferCall _ 0 none _ 0 (.err 3) rfl rfl rfl)
  exact h8.step (.deferReturn _ 0 none false _ 1 rfl rfl)

/-- A call that was cancelled while it waited, and is accepted then. -/
theorem demoCancelled : WReach 1 (⟨⟨[()], 1, false⟩, [.accepted (some 9) false (doInit (some 9)) .before 0], false⟩ : Worker Nat Nat) := by
  have h0 : WReach 1 (⟨Chan.make 1, [], false⟩ : Worker Nat Nat) := .init rfl
  have h1 := h0.step (.call _ none false rfl)
  have h2 := h1.step (.cancel _ 0 false 9 rfl rfl)
  exact h2.step (.accept _ 0 (some 9) false _ rfl rfl rfl)

/-- C14: the occupied slots are exactly the accepted calls whose goroutine has not ended, and there are at most `size`. -/
theorem C14_slots {size : Int} {w : Worker E V} (h : WReach size w) :
    w.c.buf.length = w.jobs.countP Job.occupies ∧ (w.jobs.countP Job.occupies : Int) ≤ size := by
  have hi := w_inv h
  refine ⟨hi.len, ?_⟩
  have := hi.le; have := hi.len; have := hi.nonneg
  omega

example : ([()] : List Unit).length = ([.accepted none false (runningJob none) .before 0, .pending none false] : List (Job Nat Nat)).countP Job.occupies :=
  (C14_slots demoBusy).1

/-- C14: `deferFunc` is called at most once; exactly once if the goroutine has ended; and not before `run` has ended or the context is done. -/
theorem C14_defer_once {size : Int} {w : Worker E V} (h : WReach size w) {ctx0 : Option E} {b : Bool} {d : DoSt E V} {ph : Phase} {n : Nat}
    (hj : .accepted ctx0 b d ph n ∈ w.jobs) :
    n ≤ 1 ∧ (∀ o, d.caller = .left o → n = 1) ∧
    (n = 1 → d.ctx ≠ none ∨ (∃ e, d.gor = .ended (.returned e)) ∨ ∃ p, d.gor = .ended (.panicked p)) := by
  obtain ⟨g1, g2, g3, g4⟩ := (w_inv h).jobs _ hj
  refine ⟨?_, fun o ho => (g3 (by rw [g4 o ho]; simp)).1, fun hn => ?_⟩
  · by_cases hp : ph = .before
    · rw [g2 hp]; omega
    · rw [(g3 hp).1]; omega
  · have hp : ph ≠ .before := fun hp => by have := g2 hp; omega
    obtain ⟨o, ho⟩ := (g3 hp).2
    rcases (do_inv g1).out o ho with ⟨e, _, h' | h'⟩ | ⟨p, _, h'⟩
    · left; rw [h']; simp
    · exact Or.inr (Or.inl ⟨e, h'⟩)
    · exact Or.inr (Or.inr ⟨p, h'⟩)

example : (Option.none : Option Nat) ≠ none ∨ (∃ e, (Gor.ended (.returned 3) : Gor Nat Nat) = .ended (.returned e)) ∨
    ∃ p, (Gor.ended (.returned 3) : Gor Nat Nat) = .ended (.panicked p) :=
  (C14_defer_once demoAfter (List.mem_singleton.mpr rfl)).2.2 rfl

/-- C14: if the context is done when the call is accepted then `run` is never called. -/
theorem C14_cancelled_before {size : Int} {w : Worker E V} (h : WReach size w) {e : E} {b : Bool} {d : DoSt E V} {ph : Phase} {n : Nat}
    (hj : .accepted (some e) b d ph n ∈ w.jobs) : d.started = false := by
  obtain ⟨g1, _⟩ := (w_inv h).jobs _ hj
  exact (C07_done_on_entry g1).1

example : (doInit (V := Nat) (some 9)).started = false := C14_cancelled_before demoCancelled (List.mem_singleton.mpr rfl)

/-- C14: a waiting call is accepted whenever fewer than `size` slots are occupied, and only then. -/
theorem C14_accept_iff {size : Int} {w : Worker E V} (h : WReach size w) :
    (∃ c, w.c.send () = .sent c) ↔ (w.jobs.countP Job.occupies : Int) < size := by
  have hi := w_inv h
  have h1 := hi.cap; have h2 := hi.len; have h3 := hi.nonneg
  rw [← h2]
  simp only [Chan.send, h1.1, h1.2, Bool.false_eq_true, if_false]
  constructor
  · rintro ⟨c, hc⟩
    split at hc
    · omega
    · simp at hc
  · intro hlt
    rw [if_pos (by omega)]
    exact ⟨_, rfl⟩

/-- With the only slot occupied the waiting call is not accepted. -/
example : ¬ ∃ c, (⟨[()], 1, false⟩ : Chan Unit).send () = .sent c := fun h => absurd ((C14_accept_iff demoBusy).mp h) (by decide)

/-- C14: the goroutine of an accepted call never blocks on giving its slot back. -/
theorem C14_release_never_blocks {size : Int} {w : Worker E V} (h : WReach size w) (hc : w.crashed = false) {i : Nat} {ctx0 : Option E} {b : Bool}
    {d : DoSt E V} {n : Nat} (hj : w.jobs[i]? = some (.accepted ctx0 b d .after n)) (hl : ∀ o, d.caller ≠ .left o) :
    ∃ w', WStep w w' ∧ ∃ d' o, w'.jobs[i]? = some (.accepted ctx0 b d' .after n) ∧ d'.caller = .left o := by
  have hi := w_inv h
  have hm := List.mem_of_getElem? hj
  obtain ⟨g1, g2, g3, g4⟩ := hi.jobs _ hm
  obtain ⟨o, ho | ho⟩ := (g3 (by simp)).2
  swap
  · exact absurd ho (hl o)
  have hpos : 0 < w.jobs.countP Job.occupies := by
    rw [List.countP_pos_iff]
    exact ⟨_, hm, by simp [Job.occupies, ho]⟩
  rw [← hi.len] at hpos
  cases hbuf : w.c.buf with
  | nil => rw [hbuf] at hpos; simp at hpos
  | cons u t =>
    refine ⟨_, .release w i ctx0 b d _ n _ o hc hj ho (by simp [Chan.recv, hbuf]; rfl) (.leave d o ho) rfl, { d with caller := .left o, defers := d.defers + 1 }, o, ?_, rfl⟩
    have hlen : i < w.jobs.length := by
      by_contra hlt
      rw [List.getElem?_eq_none (by omega)] at hj; simp at hj
    simp [hlen]

example : ∃ w', WStep (⟨⟨[()], 1, false⟩, [.accepted none false
    ⟨none, Chan.make 1, Chan.make 1, .leave (.err 3), .ended (.returned 3), 0, true⟩ .after 1], false⟩ : Worker Nat Nat) w' :=
  have ⟨w', h, _⟩ := C14_release_never_blocks demoAfter rfl (i := 0) rfl (by simp); ⟨w', h⟩

/-- C13 (partial): at every moment at most `size` of the functions whose context is not done are executing. In particular
the bound holds as long as no context is cancelled. Missing: functions that go on after their context is done, see
`C13_bound_refuted`. -/
theorem C13_bound_partial {size : Int} {w : Worker E V} (h : WReach size w) : (w.jobs.countP Job.executingAlive : Int) ≤ size := by
  have hi := w_inv h
  have hsl := (C14_slots h).2
  have : w.jobs.countP Job.executingAlive ≤ w.jobs.countP Job.occupies := by
    refine List.countP_mono_left (fun j hj hx => ?_)
    cases j with
    | pending => simp [Job.executingAlive] at hx
    | accepted ctx0 b d ph n =>
      obtain ⟨g1, _⟩ := hi.jobs _ hj
      have hg : d.gor = .running ∧ d.ctx = none := by
        cases hgr : d.gor <;> cases hcx : d.ctx <;> simp [Job.executingAlive, hgr, hcx] at hx ⊢
      cases hcd : d.caller with
      | left o =>
        rcases C07_not_done g1 hg.2 o hcd with ⟨e, _, h'⟩ | ⟨e, _, h'⟩ <;> rw [hg.1] at h' <;> simp at h'
      | _ => simp [Job.occupies, hcd]
  omega

example : (([.accepted none false (runningJob none) .before 0, .pending none false] : List (Job Nat Nat)).countP Job.executingAlive : Int) = 1 ∧
    (([.accepted none false (runningJob none) .before 0, .pending none false] : List (Job Nat Nat)).countP Job.executingAlive : Int) ≤ 1 :=
  ⟨rfl, C13_bound_partial demoBusy⟩

/-- If no context of an accepted call is done, the full bound of C13 holds. -/
theorem C13_bound_not_cancelled {size : Int} {w : Worker E V} (h : WReach size w)
    (hn : ∀ ctx0 b d ph n, .accepted ctx0 b d ph n ∈ w.jobs → d.ctx = none) : (w.jobs.countP Job.executing : Int) ≤ size := by
  have : w.jobs.countP Job.executing ≤ w.jobs.countP Job.executingAlive := by
    refine List.countP_mono_left (fun j hj hx => ?_)
    cases j with
    | pending => simp [Job.executing] at hx
    | accepted ctx0 b d ph n =>
      have := hn _ _ _ _ _ hj
      have hg : d.gor = .running := by
        cases hgr : d.gor <;> simp [Job.executing, hgr] at hx ⊢
      simp [Job.executingAlive, hg, this]
  have := C13_bound_partial h
  omega

example : (([.accepted none false (runningJob none) .before 0, .pending none false] : List (Job Nat Nat)).countP Job.executing : Int) ≤ 1 :=
  C13_bound_not_cancelled demoBusy (by intro _ _ _ _ _ h; simp at h; obtain ⟨_, _, rfl, _⟩ := h; rfl)

/-- C13 is false with cancellation: a worker of size 1 with two functions executing at once. The first context was
cancelled, so the slot was given back although the first function still runs. -/
theorem C13_bound_refuted : ∃ w : Worker Nat Nat, WReach 1 w ∧ w.jobs.countP Job.executing = 2 := by
  refine ⟨⟨⟨[()], 1, false⟩, [.accepted none false { runningJob (some 7) with caller := .left (.err 7), defers := 1 } .after 1,
    .accepted none false (runningJob none) .before 0], false⟩, ?_, rfl⟩
  have h0 : WReach 1 (⟨Chan.make 1, [], false⟩ : Worker Nat Nat) := .init rfl
  have h1 := h0.step (.call _ none false rfl)
  have h2 := h1.step (.accept _ 0 none false _ rfl rfl rfl)
  have h3 := h2.step (.doStep _ 0 none false _ _ .before 0 rfl rfl (.entryGo _ rfl rfl) (by simp))
  have h4 := h3.step (.doStep _ 0 none false _ _ .before 0 rfl rfl (.spawn _ rfl) (by simp))
  have h5 := h4.step (.doStep _ 0 none false _ _ .before 0 rfl rfl (.cancel _ 7 rfl) (by simp))
  have h6 := h5.step (.doStep _ 0 none false _ _ .before 0 rfl rfl (.recvCtx _ 7 rfl rfl) (by simp))
  have h7 := h6.step (.deferCall _ 0 none _ 0 (.err 7) rfl rfl rfl)
  have h8 := h7.step (.deferReturn _ 0 none false _ 1 rfl rfl)
  have h9 := h8.step (.release _ 0 none false _ _ 1 _ (.err 7) rfl rfl rfl rfl (.leave _ (.err 7) rfl) rfl)
  have h10 := h9.step (.call _ none false rfl)
  have h11 := h10.step (.accept _ 1 none false _ rfl rfl rfl)
  have h12 := h11.step (.doStep _ 1 none false _ _ .before 0 rfl rfl (.entryGo _ rfl rfl) (by simp))
  have h13 := h12.step (.doStep _ 1 none false _ _ .before 0 rfl rfl (.spawn _ rfl) (by simp))
  exact h13

theorem at_end {α : Type} (l : List α) (a : α) : (l ++ [a])[l.length]? = some a := by simp

theorem set_end {α : Type} (l : List α) (a b : α) : (l ++ [a]).set l.length b = l ++ [b] := by simp

/-- A call whose context became done: its slot is free again, its function still executes. -/
def ghost : Job Nat Nat := .accepted none false { runningJob (some 7) with caller := .left (.err 7), defers := 1 } .after 1

theorem grow {size : Int} {c c' : Chan Unit} {jobs : List (Job Nat Nat)} (hsend : c.send () = .sent c') (hrecv : c'.recv = .got () c)
    (h : WReach size ⟨c, jobs, false⟩) : WReach size ⟨c, jobs ++ [ghost], false⟩ := by
  have h1 := h.step (.call _ none false rfl)
  have h2 := h1.step (.accept _ jobs.length none false _ rfl (at_end _ _) hsend)
  simp only [set_end] at h2
  have h3 := h2.step (.doStep _ jobs.length none false _ _ .before 0 rfl (at_end _ _) (.entryGo _ rfl rfl) (by simp))
  simp only [set_end] at h3
  have h4 := h3.step (.doStep _ jobs.length none false _ _ .before 0 rfl (at_end _ _) (.spawn _ rfl) (by simp))
  simp only [set_end] at h4
  have h5 := h4.step (.doStep _ jobs.length none false _ _ .before 0 rfl (at_end _ _) (.cancel _ 7 rfl) (by simp))
  simp only [set_end] at h5
  have h6 := h5.step (.doStep _ jobs.length none false _ _ .before 0 rfl (at_end _ _) (.recvCtx _ 7 rfl rfl) (by simp))
  simp only [set_end] at h6
  have h7 := h6.step (.deferCall _ jobs.length none _ 0 (.err 7) rfl (at_end _ _) rfl)
  simp only [set_end] at h7
  have h8 := h7.step (.deferReturn _ jobs.length none false _ 1 rfl (at_end _ _))
  simp only [set_end] at h8
  have h9 := h8.step (.release _ jobs.length none false _ _ 1 _ (.err 7) rfl (at_end _ _) rfl hrecv (.leave _ (.err 7) rfl) rfl)
  simp only [set_end] at h9
  exact h9

/-- C13 is false with cancellation, for every size of the worker and without any bound: any number of functions can execute at the same time. -/
theorem C13_unbounded_refuted (size : Int) (hs : 1 ≤ size) (N : Nat) : ∃ w : Worker Nat Nat, WReach size w ∧ w.jobs.countP Job.executing = N := by
  obtain ⟨n, rfl⟩ : ∃ n : Nat, size = (n + 1 : Nat) := ⟨size.toNat - 1, by omega⟩
  have : ∀ k, WReach ((n + 1 : Nat) : Int) (⟨Chan.make (n + 1), List.replicate k ghost, false⟩ : Worker Nat Nat) := by
    intro k
    induction k with
    | zero => exact .init (by unfold newWorker; split <;> simp_all <;> omega)
    | succ k ih =>
      rw [List.replicate_succ']
      exact grow (c' := ⟨[()], n + 1, false⟩) (by simp [Chan.send, Chan.make]) (by simp [Chan.recv, Chan.make]) ih
  refine ⟨_, this N, ?_⟩
  rw [List.countP_replicate]
  rfl

/-- `NewWorker` panics iff the size is negative. -/
theorem C14_newWorker (size : Int) : (newWorker size : Option (Worker E V)) = none ↔ size < 0 := by
  unfold newWorker; split <;> simp_all

example : (newWorker (-1) : Option (Worker Nat Nat)) = none ∧ (newWorker 0 : Option (Worker Nat Nat)) ≠ none :=
  ⟨(C14_newWorker (-1)).mpr (by decide), fun h => absurd ((C14_newWorker 0).mp h) (by decide)⟩

/-- A worker of size 0 never accepts a call: `Run` blocks forever. -/
theorem C14_size_zero {w : Worker E V} (h : WReach 0 w) : ∀ j ∈ w.jobs, ∃ ctx b, j = .pending ctx b := by
  suffices hh : ∀ size : Int, WReach size w → size = 0 → ∀ j ∈ w.jobs, ∃ ctx b, j = .pending ctx b from hh 0 h rfl
  clear h
  intro size h h0
  induction h with
  | init hw =>
    unfold newWorker at hw; split at hw
    · simp at hw
    · simp only [Option.some.injEq] at hw; subst hw; simp
  | @step w w' hr hs ih =>
    have hno : ∀ (i : Nat) (ctx0 : Option E) (b : Bool) (d : DoSt E V) (ph : Phase) (n : Nat), w.jobs[i]? ≠ some (.accepted ctx0 b d ph n) := by
      intro i ctx0 b d ph n hj
      obtain ⟨_, _, h'⟩ := ih _ (List.mem_of_getElem? hj)
      simp at h'
    cases hs with
    | call ctx b hc =>
      intro j hj
      simp only [List.mem_append, List.mem_singleton] at hj
      rcases hj with hj | rfl
      · exact ih j hj
      · exact ⟨_, _, rfl⟩
    | cancel i b e hc hj =>
      intro j hj'
      rcases mem_set hj' with hj' | rfl
      · exact ih j hj'
      · exact ⟨_, _, rfl⟩
    | accept i ctx b c hc hj hsend =>
      have := (C14_accept_iff hr).1 ⟨c, hsend⟩
      omega
    | doStep _ _ _ _ _ _ _ _ hj => exact absurd hj (hno _ _ _ _ _ _)
    | deferCall _ _ _ _ _ _ hj => exact absurd hj (hno _ _ _ _ _ _)
    | deferNil _ _ _ _ _ _ hj => exact absurd hj (hno _ _ _ _ _ _)
    | deferPanic _ _ _ _ _ _ hj => exact absurd hj (hno _ _ _ _ _ _)
    | deferReturn _ _ _ _ _ _ hj => exact absurd hj (hno _ _ _ _ _ _)
    | release _ _ _ _ _ _ _ _ _ hj => exact absurd hj (hno _ _ _ _ _ _)

example : WReach 0 (⟨Chan.make 0, [.pending none false], false⟩ : Worker Nat Nat) :=
  (WReach.init rfl : WReach 0 (⟨Chan.make 0, [], false⟩ : Worker Nat Nat)).step (.call _ none false rfl)

/-- C78 is false: a panic of `run` is raised again in the goroutine of the worker where nobody recovers it. -/
theorem C78_panic_refuted : ∃ w : Worker Nat Nat, WReach 1 w ∧ w.crashed = true ∧
    ∃ d : DoSt Nat Nat, w.jobs = [.accepted none false d .after 1] ∧ d.gor = .ended (.panicked 5) := by
  have h0 : WReach 1 (⟨Chan.make 1, [], false⟩ : Worker Nat Nat) := .init rfl
  have h1 := h0.step (.call _ none false rfl)
  have h2 := h1.step (.accept _ 0 none false _ rfl rfl rfl)
  have h3 := h2.step (.doStep _ 0 none false _ _ .before 0 rfl rfl (.entryGo _ rfl rfl) (by simp))
  have h4 := h3.step (.doStep _ 0 none false _ _ .before 0 rfl rfl (.spawn _ rfl) (by simp))
  have h5 := h4.step (.doStep _ 0 none false _ _ .before 0 rfl rfl (.finish _ (.panicked 5) rfl) (by simp))
  have h6 := h5.step (.doStep _ 0 none false _ _ .before 0 rfl rfl (.deliverPanic _ 5 _ rfl rfl) (by simp))
  have h7 := h6.step (.doStep _ 0 none false _ _ .before 0 rfl rfl (.recvPanic _ 5 _ rfl rfl) (by simp))
  have h8 := h7.step (.deferCall _ 0 none _ 0 (.panic 5) rfl rfl rfl)
  have h9 := h8.step (.deferReturn _ 0 none false _ 1 rfl rfl)
  have h10 := h9.step (.release _ 0 none false _ _ 1 _ (.panic 5) rfl rfl rfl rfl (.leave _ (.panic 5) rfl) rfl)
  exact ⟨_, h10, rfl, _, rfl, rfl⟩

/-- C78, exactly: the program crashes if and only if a `deferFunc` has panicked (a nil one does), or a `run` has panicked and its context was
not done first. -/
theorem C78_exact {size : Int} {w : Worker E V} (h : WReach size w) :
    w.crashed = true ↔ ∃ ctx0 b d ph n, .accepted ctx0 b d ph n ∈ w.jobs ∧ (ph = .panicked ∨ ∃ p, d.caller = .left (.panic p)) := by
  have hset : ∀ {l : List (Job E V)} {i : Nat} {a b : Job E V}, l[i]? = some a → b ∈ l.set i b := by
    intro l i a b hj
    refine List.mem_set ?_ _
    by_contra hlt
    rw [List.getElem?_eq_none (by omega)] at hj; simp at hj
  induction h with
  | init hw =>
    unfold newWorker at hw; split at hw
    · simp at hw
    · simp only [Option.some.injEq] at hw; subst hw; simp
  | @step w w' hr hs ih =>
    have no : w.crashed = false → ∀ ctx0 b d ph n, .accepted ctx0 b d ph n ∈ w.jobs → ¬ (ph = .panicked ∨ ∃ p, d.caller = .left (.panic p)) :=
      fun hc ctx0 b d ph n hm hx => by have := ih.mpr ⟨ctx0, b, d, ph, n, hm, hx⟩; rw [hc] at this; simp at this
    have keep : ∀ {j' : Job E V} {i : Nat}, w.crashed = false →
        (∀ ctx0 b d ph n, j' = .accepted ctx0 b d ph n → ¬ (ph = .panicked ∨ ∃ p, d.caller = .left (.panic p))) →
        (false = true ↔ ∃ ctx0 b d ph n, .accepted ctx0 b d ph n ∈ w.jobs.set i j' ∧ (ph = .panicked ∨ ∃ p, d.caller = .left (.panic p))) := by
      intro j' i hc hj'
      simp only [Bool.false_eq_true, false_iff]
      rintro ⟨ctx0, b, d, ph, n, hm, hx⟩
      rcases mem_set hm with hm | hm
      · exact no hc _ _ _ _ _ hm hx
      · exact hj' _ _ _ _ _ hm.symm hx
    cases hs with
    | call ctx b hc =>
      refine ih.trans ?_
      constructor
      · rintro ⟨a1, a2, a3, a4, a5, hm, hx⟩; exact ⟨a1, a2, a3, a4, a5, List.mem_append_left _ hm, hx⟩
      · rintro ⟨a1, a2, a3, a4, a5, hm, hx⟩
        rcases List.mem_append.mp hm with hm | hm
        · exact ⟨a1, a2, a3, a4, a5, hm, hx⟩
        · simp at hm
    | cancel i b e hc hj => show w.crashed = true ↔ _; rw [hc]; exact keep hc (by simp)
    | accept i ctx b c hc hj hsend =>
      show w.crashed = true ↔ _; rw [hc]; refine keep hc ?_
      rintro _ _ _ _ _ ⟨⟩; simp [doInit]
    | doStep i ctx0 b d d' ph n hc hj hd hl =>
      show w.crashed = true ↔ _; rw [hc]; refine keep hc ?_
      rintro _ _ _ _ _ ⟨⟩ (hx | ⟨p, hx⟩)
      · exact no hc _ _ _ _ _ (List.mem_of_getElem? hj) (.inl hx)
      · exact no hc _ _ _ _ _ (List.mem_of_getElem? hj) (.inr ⟨p, hl _ hx⟩)
    | deferCall i ctx0 d n o hc hj hl =>
      show w.crashed = true ↔ _; rw [hc]; refine keep hc ?_
      rintro _ _ _ _ _ ⟨⟩; simp [hl]
    | deferNil i ctx0 d n o hc hj hl => exact ⟨fun _ => ⟨_, _, _, _, _, hset hj, .inl rfl⟩, fun _ => rfl⟩
    | deferPanic i ctx0 b d n hc hj => exact ⟨fun _ => ⟨_, _, _, _, _, hset hj, .inl rfl⟩, fun _ => rfl⟩
    | deferReturn i ctx0 b d n hc hj =>
      show w.crashed = true ↔ _; rw [hc]; refine keep hc ?_
      rintro _ _ _ _ _ ⟨⟩ (hx | ⟨p, hx⟩)
      · simp at hx
      · exact no hc _ _ _ _ _ (List.mem_of_getElem? hj) (.inr ⟨p, hx⟩)
    | release i ctx0 b d d' n c o hc hj hl hrv hd hl' =>
      cases o with
      | err e =>
        refine keep hc ?_
        rintro _ _ _ _ _ ⟨⟩; simp [hl']
      | panic p => exact ⟨fun _ => ⟨_, _, _, _, _, hset hj, .inr ⟨p, hl'⟩⟩, fun _ => rfl⟩

/-- C78 (partial): as long as no `run` and no `deferFunc` panics, and none of the latter is nil, the worker does not crash the program. -/
theorem C78_no_crash_partial {size : Int} {w : Worker E V} (h : WReach size w)
    (hp : ∀ ctx0 b d ph n, .accepted ctx0 b d ph n ∈ w.jobs → ph ≠ .panicked ∧ ∀ p, d.gor ≠ .ended (.panicked p)) : w.crashed = false := by
  cases hc : w.crashed with
  | false => rfl
  | true =>
    obtain ⟨ctx0, b, d, ph, n, hm, hx⟩ := (C78_exact h).mp hc
    rcases hx with hx | ⟨p, hx⟩
    · exact absurd hx (hp _ _ _ _ _ hm).1
    · obtain ⟨g1, _⟩ := (w_inv h).jobs _ hm
      exact absurd (C07_result g1 _ hx) ((hp _ _ _ _ _ hm).2 p)

example : (⟨⟨[()], 1, false⟩, [.accepted none false ⟨none, Chan.make 1, Chan.make 1, .leave (.err 3), .ended (.returned 3), 0, true⟩ .after 1],
    false⟩ : Worker Nat Nat).crashed = false := by
  refine C78_no_crash_partial demoAfter ?_
  intro _ _ _ _ _ h
  simp only [List.mem_singleton, Job.accepted.injEq] at h
  obtain ⟨_, _, rfl, rfl, _⟩ := h
  simp

example : ∃ w : Worker Nat Nat, ∃ ctx0 b d ph n, .accepted ctx0 b d ph n ∈ w.jobs ∧ (ph = .panicked ∨ ∃ p, d.caller = .left (.panic p)) :=
  have ⟨w, h, hc, _⟩ := C78_panic_refuted; ⟨w, (C78_exact h).mp hc⟩

end Verif.XWorker

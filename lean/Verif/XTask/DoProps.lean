import Verif.XTask.Do
/-! # Property theorems for `Do` (C06, C07, C08, C77) -/
namespace Verif.XTask
open Verif.Go

variable {E V : Type}

/-- `Do` has not started its goroutine (do.go:28-41). -/
def Caller.before : Caller E V → Prop
  | .entry | .spawn => True
  | _ => False

/-- Where the results are. -/
structure DoInv (hasDefer : Bool) (ctx0 : Option E) (m : DoSt E V) : Prop where
  capD : m.doneChan.cap = 1 ∧ m.doneChan.closed = false
  capP : m.panicChan.cap = 1 ∧ m.panicChan.closed = false
  ctx : ∀ e, ctx0 = some e → m.ctx = some e
  entry : m.caller.before → m.gor = .none ∧ m.started = false ∧ m.doneChan.buf = [] ∧ m.panicChan.buf = []
  entered : m.caller = .spawn → ctx0 = none
  wait : m.caller = .wait → m.gor ≠ .none
  notStarted : m.gor = .none → m.started = false ∧ m.doneChan.buf = [] ∧ m.panicChan.buf = []
  hasStarted : m.gor ≠ .none → m.started = true ∧ ctx0 = none
  pending : ∀ o, (m.gor = .running ∨ m.gor = .finished o) → m.doneChan.buf = [] ∧ m.panicChan.buf = []
  bufD : ∀ e, e ∈ m.doneChan.buf → m.gor = .ended (.returned e) ∧ m.doneChan.buf = [e]
  bufP : ∀ p, p ∈ m.panicChan.buf → m.gor = .ended (.panicked p) ∧ m.panicChan.buf = [p]
  keep : ∀ o, m.caller = .wait → m.gor = .ended o →
    (∀ e, o = .returned e → m.doneChan.buf = [e]) ∧ (∀ p, o = .panicked p → m.panicChan.buf = [p])
  out : ∀ o, (m.caller = .leave o ∨ m.caller = .left o) →
    (∃ e, o = .err e ∧ (m.ctx = some e ∨ m.gor = .ended (.returned e))) ∨ (∃ p, o = .panic p ∧ m.gor = .ended (.panicked p))
  defers : m.defers = match m.caller with
    | .left _ => if hasDefer then 1 else 0
    | _ => 0

theorem do_inv_init (hasDefer : Bool) (ctx : Option E) : DoInv hasDefer ctx (doInit (V := V) ctx) := by
  constructor <;> simp [doInit, Chan.make, Caller.before]

theorem do_inv_step {hasDefer : Bool} {ctx0 : Option E} {m m' : DoSt E V} (h : DoInv hasDefer ctx0 m) (hs : DoStep hasDefer m m') :
    DoInv hasDefer ctx0 m' := by
  obtain ⟨a1, a2, a3, a4, a5, a6, a7, a8, a9, a10, a11, a12, a13, a14⟩ := h
  cases hs with
  | cancel e hc =>
    refine ⟨a1, a2, ?_, a4, a5, a6, a7, a8, a9, a10, a11, a12, ?_, a14⟩
    · intro e' he; have := a3 e' he; rw [hc] at this; simp at this
    · intro o ho
      rcases a13 o ho with ⟨e', he, h'⟩ | h'
      · refine Or.inl ⟨e', he, ?_⟩
        rcases h' with h' | h'
        · rw [hc] at h'; simp at h'
        · exact Or.inr h'
      · exact Or.inr h'
  | entryDone e hc hx =>
    obtain ⟨b1, b2, b3, b4⟩ := a4 (by rw [hc]; trivial)
    refine ⟨a1, a2, a3, ?_, ?_, ?_, a7, a8, a9, a10, a11, ?_, ?_, ?_⟩
    · simp [Caller.before]
    · simp
    · simp
    · simp
    · simp only [Caller.leave.injEq, reduceCtorEq, or_false]; rintro o rfl; exact Or.inl ⟨e, rfl, Or.inl hx⟩
    · rw [hc] at a14; simpa using a14
  | entryGo hc hx =>
    have hb := a4 (by rw [hc]; trivial)
    refine ⟨a1, a2, a3, fun _ => hb, ?_, ?_, a7, a8, a9, a10, a11, ?_, ?_, ?_⟩
    · intro _
      cases hc0 : ctx0 with
      | none => rfl
      | some e => have := a3 e hc0; rw [hx] at this; simp at this
    · simp
    · simp
    · simp
    · rw [hc] at a14; simpa using a14
  | spawn hc =>
    have h0 := a5 hc
    refine ⟨⟨rfl, rfl⟩, ⟨rfl, rfl⟩, a3, ?_, ?_, ?_, ?_, ?_, ?_, ?_, ?_, ?_, ?_, ?_⟩
    · simp [Caller.before]
    · simp
    · simp
    · simp
    · intro _; exact ⟨rfl, h0⟩
    · intro o _; exact ⟨rfl, rfl⟩
    · simp [Chan.make]
    · simp [Chan.make]
    · simp
    · simp
    · rw [hc] at a14; simpa using a14
  | finish o hg =>
    obtain ⟨b1, b2⟩ := a9 o (Or.inl hg)
    have b3 := a8 (by rw [hg]; simp)
    refine ⟨a1, a2, a3, ?_, a5, ?_, ?_, ?_, ?_, ?_, ?_, ?_, ?_, a14⟩
    · intro hb; have := (a4 hb).1; rw [hg] at this; simp at this
    · simp
    · simp
    · intro _; exact b3
    · intro o' _; exact ⟨b1, b2⟩
    · intro e he; rw [b1] at he; simp at he
    · intro e he; rw [b2] at he; simp at he
    · simp
    · intro o' ho'
      rcases a13 o' ho' with ⟨e', he, h'⟩ | ⟨p, hp, h'⟩
      · rcases h' with h' | h'
        · exact Or.inl ⟨e', he, Or.inl h'⟩
        · rw [hg] at h'; simp at h'
      · rw [hg] at h'; simp at h'
  | deliverRet e c hg hsd =>
    obtain ⟨b1, b2⟩ := a9 _ (Or.inr hg)
    have b3 := a8 (by rw [hg]; simp)
    simp only [Chan.send, a1.1, a1.2, b1, Bool.false_eq_true, if_false, List.length_nil, Nat.zero_lt_one, if_true, Chan.SendRes.sent.injEq] at hsd
    subst hsd
    refine ⟨⟨rfl, rfl⟩, a2, a3, ?_, a5, ?_, ?_, ?_, ?_, ?_, ?_, ?_, ?_, a14⟩
    · intro hb; have := (a4 hb).1; rw [hg] at this; simp at this
    · simp
    · simp
    · intro _; exact b3
    · simp
    · simp
    · intro p hp; rw [b2] at hp; simp at hp
    · intro o _ ho; simp only [Gor.ended.injEq] at ho; subst ho; simp
    · intro o' ho'
      rcases a13 o' ho' with ⟨e', he, h'⟩ | ⟨p, hp, h'⟩
      · rcases h' with h' | h'
        · exact Or.inl ⟨e', he, Or.inl h'⟩
        · rw [hg] at h'; simp at h'
      · rw [hg] at h'; simp at h'
  | deliverPanic p c hg hsd =>
    obtain ⟨b1, b2⟩ := a9 _ (Or.inr hg)
    have b3 := a8 (by rw [hg]; simp)
    simp only [Chan.send, a2.1, a2.2, b2, Bool.false_eq_true, if_false, List.length_nil, Nat.zero_lt_one, if_true, Chan.SendRes.sent.injEq] at hsd
    subst hsd
    refine ⟨a1, ⟨rfl, rfl⟩, a3, ?_, a5, ?_, ?_, ?_, ?_, ?_, ?_, ?_, ?_, a14⟩
    · intro hb; have := (a4 hb).1; rw [hg] at this; simp at this
    · simp
    · simp
    · intro _; exact b3
    · simp
    · intro p hp; rw [b1] at hp; simp at hp
    · simp
    · intro o _ ho; simp only [Gor.ended.injEq] at ho; subst ho; simp
    · intro o' ho'
      rcases a13 o' ho' with ⟨e', he, h'⟩ | ⟨p, hp, h'⟩
      · rcases h' with h' | h'
        · exact Or.inl ⟨e', he, Or.inl h'⟩
        · rw [hg] at h'; simp at h'
      · rw [hg] at h'; simp at h'
  | deliverNone hg =>
    obtain ⟨b1, b2⟩ := a9 _ (Or.inr hg)
    have b3 := a8 (by rw [hg]; simp)
    refine ⟨a1, a2, a3, ?_, a5, ?_, ?_, ?_, ?_, ?_, ?_, ?_, ?_, a14⟩
    · intro hb; have := (a4 hb).1; rw [hg] at this; simp at this
    · simp
    · simp
    · intro _; exact b3
    · simp
    · intro p hp; rw [b1] at hp; simp at hp
    · intro p hp; rw [b2] at hp; simp at hp
    · intro o _ ho; simp only [Gor.ended.injEq] at ho; subst ho; simp
    · intro o' ho'
      rcases a13 o' ho' with ⟨e', he, h'⟩ | ⟨p, hp, h'⟩
      · rcases h' with h' | h'
        · exact Or.inl ⟨e', he, Or.inl h'⟩
        · rw [hg] at h'; simp at h'
      · rw [hg] at h'; simp at h'
  | recvPanic p c hc hr =>
    have hmem : p ∈ m.panicChan.buf := by
      unfold Chan.recv at hr; split at hr
      · rename_i heq; simp only [Chan.RecvRes.got.injEq] at hr; rw [heq, hr.1]; simp
      · split at hr <;> simp at hr
    obtain ⟨b1, b2⟩ := a11 p hmem
    simp only [Chan.recv, b2, Chan.RecvRes.got.injEq, true_and] at hr
    subst hr
    have hg : m.gor ≠ .none := by rw [b1]; simp
    refine ⟨a1, a2, a3, ?_, ?_, ?_, ?_, a8, ?_, a10, ?_, ?_, ?_, ?_⟩
    · simp [Caller.before]
    · simp
    · simp
    · intro h'; exact absurd h' hg
    · intro o ho; rw [b1] at ho; simp at ho
    · simp
    · simp
    · simp only [Caller.leave.injEq, reduceCtorEq, or_false]; rintro o rfl; exact Or.inr ⟨p, rfl, b1⟩
    · rw [hc] at a14; simpa using a14
  | recvDone e c hc hr =>
    have hmem : e ∈ m.doneChan.buf := by
      unfold Chan.recv at hr; split at hr
      · rename_i heq; simp only [Chan.RecvRes.got.injEq] at hr; rw [heq, hr.1]; simp
      · split at hr <;> simp at hr
    obtain ⟨b1, b2⟩ := a10 e hmem
    simp only [Chan.recv, b2, Chan.RecvRes.got.injEq, true_and] at hr
    subst hr
    have hg : m.gor ≠ .none := by rw [b1]; simp
    refine ⟨a1, a2, a3, ?_, ?_, ?_, ?_, a8, ?_, ?_, a11, ?_, ?_, ?_⟩
    · simp [Caller.before]
    · simp
    · simp
    · intro h'; exact absurd h' hg
    · intro o ho; rw [b1] at ho; simp at ho
    · simp
    · simp
    · simp only [Caller.leave.injEq, reduceCtorEq, or_false]; rintro o rfl; exact Or.inl ⟨e, rfl, Or.inr b1⟩
    · rw [hc] at a14; simpa using a14
  | recvCtx e hc hx =>
    refine ⟨a1, a2, a3, ?_, ?_, ?_, a7, a8, a9, a10, a11, ?_, ?_, ?_⟩
    · simp [Caller.before]
    · simp
    · simp
    · simp
    · simp only [Caller.leave.injEq, reduceCtorEq, or_false]; rintro o rfl; exact Or.inl ⟨e, rfl, Or.inl hx⟩
    · rw [hc] at a14; simpa using a14
  | leave o hc =>
    refine ⟨a1, a2, a3, ?_, ?_, ?_, a7, a8, a9, a10, a11, ?_, ?_, ?_⟩
    · simp [Caller.before]
    · simp
    · simp
    · simp
    · intro o' ho'
      simp only [reduceCtorEq, Caller.left.injEq, false_or] at ho'
      subst ho'
      exact a13 o (Or.inl hc)
    · rw [hc] at a14; simp only at a14 ⊢; rw [a14]; simp

theorem do_inv {hasDefer : Bool} {ctx0 : Option E} {m : DoSt E V} (h : DoReach hasDefer ctx0 m) : DoInv hasDefer ctx0 m := by
  induction h with
  | init => exact do_inv_init hasDefer ctx0
  | step _ hs ih => exact do_inv_step ih hs

/-- A run: `do` panics after the context has been cancelled, `Do` picks the panic; the deferred call has run. -/
theorem demoPanic : ∃ m : DoSt Nat Nat, DoReach true none m ∧ m.caller = .left (.panic 5) ∧ m.defers = 1 ∧ m.ctx = some 9 := by
  refine ⟨⟨some 9, Chan.make 1, Chan.make 1, .left (.panic 5), .ended (.panicked 5), 1, true⟩, ?_, rfl, rfl, rfl⟩
  exact .step (.step (.step (.step (.step (.step (.step .init (.entryGo _ rfl rfl)) (.spawn _ rfl)) (.cancel _ 9 rfl)) (.finish _ (.panicked 5) rfl))
    (.deliverPanic _ 5 _ rfl rfl)) (.recvPanic _ 5 _ rfl rfl)) (.leave _ (.panic 5) rfl)

/-- A run: `do` returns 3 and `Do` returns 3, the context is never done. -/
theorem demoReturn : ∃ m : DoSt Nat Nat, DoReach true none m ∧ m.caller = .left (.err 3) ∧ m.ctx = none := by
  refine ⟨⟨none, Chan.make 1, Chan.make 1, .left (.err 3), .ended (.returned 3), 1, true⟩, ?_, rfl, rfl⟩
  exact .step (.step (.step (.step (.step (.step .init (.entryGo _ rfl rfl)) (.spawn _ rfl)) (.finish _ (.returned 3) rfl))
    (.deliverRet _ 3 _ rfl rfl)) (.recvDone _ 3 _ rfl rfl)) (.leave _ (.err 3) rfl)

/-- A run: `Do` has returned because of the cancellation, then `do` returns. -/
theorem demoLate : ∃ m : DoSt Nat Nat, DoReach false none m ∧ m.caller = .left (.err 9) ∧ m.gor = .finished (.returned 3) := by
  refine ⟨⟨some 9, Chan.make 1, Chan.make 1, .left (.err 9), .finished (.returned 3), 0, true⟩, ?_, rfl, rfl⟩
  exact .step (.step (.step (.step (.step (.step .init (.entryGo _ rfl rfl)) (.spawn _ rfl)) (.cancel _ 9 rfl)) (.recvCtx _ 9 rfl rfl))
    (.leave _ (.err 9) rfl)) (.finish _ (.returned 3) rfl)

/-- A run: the context is done on entry. -/
theorem demoDone : ∃ m : DoSt Nat Nat, DoReach true (some 9) m ∧ m.caller = .left (.err 9) := by
  refine ⟨⟨some 9, Chan.make 1, Chan.make 1, .left (.err 9), .none, 1, false⟩, ?_, rfl⟩
  exact .step (.step .init (.entryDone _ 9 rfl rfl)) (.leave _ (.err 9) rfl)

/-- C06: when `Do` has returned or panicked, a non-nil `deferFunc` has been called exactly once (a nil one never), and it
is not called before the decision to leave. -/
theorem C06_defer_once {hasDefer : Bool} {ctx0 : Option E} {m : DoSt E V} (h : DoReach hasDefer ctx0 m) :
    (∀ o, m.caller = .left o → m.defers = if hasDefer then 1 else 0) ∧ ((∀ o, m.caller ≠ .left o) → m.defers = 0) := by
  have hd := (do_inv h).defers
  constructor
  · intro o ho; rw [ho] at hd; exact hd
  · intro hn
    cases hc : m.caller with
    | left o => exact absurd hc (hn o)
    | _ => rw [hc] at hd; exact hd

example : ∃ m : DoSt Nat Nat, m.caller = .left (.panic 5) ∧ m.defers = 1 :=
  have ⟨m, h, h1, _⟩ := demoPanic; ⟨m, h1, (C06_defer_once h).1 _ h1⟩

/-- C06: `DoWithoutDefer` never calls a deferred function. -/
theorem C06_without_defer {ctx0 : Option E} {m : DoSt E V} (h : DoWithoutDeferReach ctx0 m) : m.defers = 0 := by
  obtain ⟨h1, h2⟩ := C06_defer_once h
  by_cases hl : ∃ o, m.caller = .left o
  · obtain ⟨o, ho⟩ := hl
    simpa using h1 o ho
  · exact h2 fun o ho => hl ⟨o, ho⟩

example : ∃ m : DoSt Nat Nat, m.caller = .left (.err 9) ∧ m.defers = 0 :=
  have ⟨m, h, h1, _⟩ := demoLate; ⟨m, h1, C06_without_defer h⟩

/-- C07: a returned error is what `do` returned, or the context's error and then the context is done; a panic of `Do`
stems from a panic of `do` with the same value. -/
theorem C07_result {hasDefer : Bool} {ctx0 : Option E} {m : DoSt E V} (h : DoReach hasDefer ctx0 m) (o : Out E V) (ho : m.caller = .left o) :
    match o with
    | .err e => m.ctx = some e ∨ m.gor = .ended (.returned e)
    | .panic p => m.gor = .ended (.panicked p) := by
  rcases (do_inv h).out o (Or.inr ho) with ⟨e, rfl, h'⟩ | ⟨p, rfl, h'⟩
  · exact h'
  · exact h'

example : ∃ m : DoSt Nat Nat, m.caller = .left (.panic 5) ∧ m.gor = .ended (.panicked 5) :=
  have ⟨m, h, h1, _⟩ := demoPanic; ⟨m, h1, C07_result h _ h1⟩

/-- C07: with a context that is done on entry, `do` is never called and `Do` can only return the context's error. -/
theorem C07_done_on_entry {hasDefer : Bool} {e : E} {m : DoSt E V} (h : DoReach hasDefer (some e) m) :
    m.started = false ∧ ∀ o, m.caller = .left o → o = .err e := by
  have hi := do_inv h
  have hg : m.gor = .none := by
    by_cases hg : m.gor = .none
    · exact hg
    · have := (hi.hasStarted hg).2; simp at this
  refine ⟨(hi.notStarted hg).1, fun o ho => ?_⟩
  have hc := hi.ctx e rfl
  rcases hi.out o (Or.inr ho) with ⟨e', rfl, h' | h'⟩ | ⟨p, rfl, h'⟩
  · rw [hc] at h'; simp at h'; rw [h']
  · rw [hg] at h'; simp at h'
  · rw [hg] at h'; simp at h'

example : ∃ m : DoSt Nat Nat, m.caller = .left (.err 9) ∧ m.started = false :=
  have ⟨m, h, h1⟩ := demoDone; ⟨m, h1, (C07_done_on_entry h).1⟩

/-- C07: while the context is not done, `Do` returns exactly `do`'s result or propagates its panic. -/
theorem C07_not_done {hasDefer : Bool} {ctx0 : Option E} {m : DoSt E V} (h : DoReach hasDefer ctx0 m) (hctx : m.ctx = none)
    (o : Out E V) (ho : m.caller = .left o) :
    (∃ e, o = .err e ∧ m.gor = .ended (.returned e)) ∨ (∃ p, o = .panic p ∧ m.gor = .ended (.panicked p)) := by
  rcases (do_inv h).out o (Or.inr ho) with ⟨e, rfl, h' | h'⟩ | h'
  · rw [hctx] at h'; simp at h'
  · exact Or.inl ⟨e, rfl, h'⟩
  · exact Or.inr h'

example : ∃ m : DoSt Nat Nat, m.caller = .left (.err 3) ∧
    ((∃ e, Out.err (V := Nat) 3 = .err e ∧ m.gor = .ended (.returned e)) ∨ ∃ p, Out.err (E := Nat) 3 = .panic p ∧ m.gor = .ended (.panicked p)) :=
  have ⟨m, h, h1, h2⟩ := demoReturn; ⟨m, h1, C07_not_done h h2 _ h1⟩

/-- C08: once `do` has ended, the goroutine can always take its last step: it never blocks on delivering the result,
even if the caller has left. -/
theorem C08_no_leak {hasDefer : Bool} {ctx0 : Option E} {m : DoSt E V} (h : DoReach hasDefer ctx0 m) (o : Outcome E V)
    (hg : m.gor = .finished o) : ∃ m', DoStep hasDefer m m' ∧ m'.gor = .ended o ∧ m'.caller = m.caller := by
  have hi := do_inv h
  obtain ⟨b1, b2⟩ := hi.pending o (Or.inr hg)
  cases o with
  | returned e =>
    exact ⟨_, .deliverRet m e _ hg (by simp [Chan.send, hi.capD.1, hi.capD.2, b1]; rfl), rfl, rfl⟩
  | panicked p =>
    exact ⟨_, .deliverPanic m p _ hg (by simp [Chan.send, hi.capP.1, hi.capP.2, b2]; rfl), rfl, rfl⟩
  | exited => exact ⟨_, .deliverNone m hg, rfl, rfl⟩

example : ∃ m m' : DoSt Nat Nat, m.caller = .left (.err 9) ∧ DoStep false m m' ∧ m'.gor = .ended (.returned 3) :=
  have ⟨m, h, h1, h2⟩ := demoLate; have ⟨m', h3, h4, _⟩ := C08_no_leak h _ h2; ⟨m, m', h1, h3, h4⟩

/-- C77 (partial): the caller of `Do` is never stuck when `do` has returned or panicked or the context is done. Missing:
the case that `do` ends its goroutine with `runtime.Goexit`, see `C77_goexit_refuted`. -/
theorem C77_returns_partial {hasDefer : Bool} {ctx0 : Option E} {m : DoSt E V} (h : DoReach hasDefer ctx0 m)
    (hn : ∀ o, m.caller ≠ .left o)
    (hd : m.ctx ≠ none ∨ (∃ e, m.gor = .ended (.returned e)) ∨ ∃ p, m.gor = .ended (.panicked p)) :
    ∃ m', DoStep hasDefer m m' ∧ m'.caller ≠ m.caller := by
  have hi := do_inv h
  cases hc : m.caller with
  | left o => exact absurd hc (hn o)
  | leave o => exact ⟨_, .leave m o hc, by simp⟩
  | spawn => exact ⟨_, .spawn m hc, by simp⟩
  | entry =>
    cases hx : m.ctx with
    | none => exact ⟨_, .entryGo m hc hx, by simp⟩
    | some e => exact ⟨_, .entryDone m e hc hx, by simp⟩
  | wait =>
    rcases hd with hd | ⟨e, hd⟩ | ⟨p, hd⟩
    · cases hx : m.ctx with
      | none => exact absurd hx hd
      | some e => exact ⟨_, .recvCtx m e hc hx, by simp⟩
    · exact ⟨_, .recvDone m e _ hc (by simp [Chan.recv, (hi.keep _ hc hd).1 e rfl]; rfl), by simp⟩
    · exact ⟨_, .recvPanic m p _ hc (by simp [Chan.recv, (hi.keep _ hc hd).2 p rfl]; rfl), by simp⟩

/-- `do` has returned and the caller waits. -/
example : ∃ m m' : DoSt Nat Nat, m.caller = .wait ∧ m.ctx = none ∧ DoStep true m m' ∧ m'.caller ≠ .wait := by
  have h : DoReach true none (⟨none, ⟨[3], 1, false⟩, Chan.make 1, .wait, .ended (.returned 3), 0, true⟩ : DoSt Nat Nat) :=
    .step (.step (.step (.step .init (.entryGo _ rfl rfl)) (.spawn _ rfl)) (.finish _ (.returned 3) rfl)) (.deliverRet _ 3 _ rfl rfl)
  obtain ⟨m', h1, h2⟩ := C77_returns_partial h (by simp) (Or.inr (Or.inl ⟨3, rfl⟩))
  exact ⟨_, m', rfl, rfl, h1, h2⟩

/-- C77 fails for `runtime.Goexit`: `do` has ended, the context is alive, and `Do` has not returned and cannot take any step
(only a later cancellation of the context could release it). -/
theorem C77_goexit_refuted : ∃ m : DoSt Nat Nat, DoReach true none m ∧ m.gor = .ended .exited ∧ m.caller = .wait ∧
    ∀ m', DoStep true m m' → m'.caller = .wait ∧ m'.ctx ≠ none := by
  refine ⟨⟨none, Chan.make 1, Chan.make 1, .wait, .ended .exited, 0, true⟩, ?_, rfl, rfl, ?_⟩
  · exact .step (.step (.step (.step .init (.entryGo _ rfl rfl)) (.spawn _ rfl)) (.finish _ .exited rfl)) (.deliverNone _ rfl)
  · intro m' hs
    cases hs <;> simp_all [Chan.recv, Chan.make]

/-- `DoWithTimeout`: an error it returns is `do`'s own or the deadline error; with a timeout that is not positive `do` is
never called. -/
theorem C07_timeout {hasDefer : Bool} {deadline : E} {timeout : Int} {m : DoSt E V} (h : DoWithTimeoutReach hasDefer deadline timeout m) :
    (∀ e, m.caller = .left (.err e) → e = deadline ∨ m.gor = .ended (.returned e)) ∧ (timeout ≤ 0 → m.started = false) := by
  have key : (∃ c, DoReach hasDefer c m ∧ (timeout ≤ 0 → c = some deadline)) ∧ ∀ e, m.ctx = some e → e = deadline := by
    induction h with
    | init =>
      refine ⟨⟨_, .init, fun h' => by simp [h']⟩, fun e he => ?_⟩
      by_cases ht : timeout ≤ 0 <;> simp [doInit, ht] at he
      exact he.symm
    | step _ hs hctx ih =>
      obtain ⟨⟨c, h1, h2⟩, h3⟩ := ih
      refine ⟨⟨c, .step h1 hs, h2⟩, fun e he => ?_⟩
      rcases hctx with h' | h'
      · rw [h'] at he; exact h3 e he
      · rw [h'] at he; simpa using he.symm
  obtain ⟨⟨c, h1, h2⟩, h3⟩ := key
  refine ⟨fun e he => ?_, fun ht => ?_⟩
  · rcases C07_result h1 _ he with h' | h'
    · exact Or.inl (h3 e h')
    · exact Or.inr h'
  · have := h2 ht
    subst this
    exact (C07_done_on_entry h1).1

/-- The deadline passes while `do` runs. -/
example : ∃ m : DoSt Nat Nat, DoWithTimeoutReach true 9 5 m ∧ m.caller = .left (.err 9) ∧ m.gor = .running := by
  refine ⟨⟨some 9, Chan.make 1, Chan.make 1, .left (.err 9), .running, 1, true⟩, ?_, rfl, rfl⟩
  exact .step (.step (.step (.step (.step .init (.entryGo _ rfl rfl) (Or.inl rfl)) (.spawn _ rfl) (Or.inl rfl)) (.cancel _ 9 rfl) (Or.inr rfl))
    (.recvCtx _ 9 rfl rfl) (Or.inl rfl)) (.leave _ (.err 9) rfl) (Or.inl rfl)

end Verif.XTask

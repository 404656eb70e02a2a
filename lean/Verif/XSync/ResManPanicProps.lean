import Verif.XSync.ResManPanic
import Verif.Conc.Phase
/-! # Property theorems for `xsync.ResourceManager` with panicking functions and nil resources (C107) -/
namespace Verif.XSync.ResMan
open Verif.Conc Verif.XError

variable {K E : Type} [DecidableEq K] {cerr : Nat → Option E} {pan : E → Bool} {isNil : Nat → Bool}
  {m : Conf (G K E) (Op K E) (ResN E) (Pt K E)} {H : List (Ev (Op K E) (ResN E))}

omit [DecidableEq K] in
theorem inv_seen {i : Nat} {op : Op K E} : Ev.inv i op ∈ H.filterMap (Ev.seen back) ↔ Ev.inv i op ∈ H := by
  rw [List.mem_filterMap]
  constructor
  · rintro ⟨e, he, hs⟩
    cases e with
    | inv j o => simp only [Ev.seen, Option.some.injEq, Ev.inv.injEq] at hs; obtain ⟨rfl, rfl⟩ := hs; exact he
    | ret j r => simp only [Ev.seen, Option.map_eq_some_iff] at hs; obtain ⟨_, _, h⟩ := hs; simp at h
  · intro h; exact ⟨_, h, rfl⟩

omit [DecidableEq K] in
theorem ret_seen {i : Nat} {r' : Res' E} : Ev.ret i r' ∈ H.filterMap (Ev.seen back) ↔ ∃ r, back r = some r' ∧ Ev.ret i r ∈ H := by
  rw [List.mem_filterMap]
  constructor
  · rintro ⟨e, he, hs⟩
    cases e with
    | inv j o => simp [Ev.seen] at hs
    | ret j r =>
      simp only [Ev.seen, Option.map_eq_some_iff, Ev.ret.injEq] at hs
      obtain ⟨_, hb, rfl, rfl⟩ := hs
      exact ⟨r, hb, he⟩
  · rintro ⟨r, hb, h⟩; exact ⟨_, h, by simp [Ev.seen, hb]⟩

/-- A `Get` or `Remove` call that has returned or panicked is also seen as ended in `ResMan.lean`. -/
theorem before_seen (h : (progN cerr pan isNil).mach.Exec m H) {a b : Nat} {k : K} {f : Option E} (ha : Ev.inv a (.get k f) ∈ H) (hb : Before H a b) :
    Before (H.filterMap (Ev.seen back)) a b := by
  obtain ⟨H₁, H₂, r, op, rfl, h1, h2⟩ := hb
  obtain ⟨m', _, _, hS⟩ := refinesN h
  have hv := (progN cerr pan isNil).ret_view h ha (List.mem_append_left _ h1)
  have := hS a
  simp only [hv] at this
  cases hr : back r with
  | none => simp [hr] at this
  | some r' =>
    exact ⟨H₁.filterMap (Ev.seen back), H₂.filterMap (Ev.seen back), r', op, List.filterMap_append .., ret_seen.2 ⟨r, hr, h1⟩, inv_seen.2 h2⟩

/-- What the results say about the functions. -/
def ends (cerr : Nat → Option E) (pan : E → Bool) (isNil : Nat → Bool) : ResN E → Prop
  | .got r => isNil r = false
  | .failed e => pan e = false
  | .panics (.create e) => pan e = true
  | .panics (.notCloser r) => isNil r = true
  | .panics .nilMap => True
  | .removed _ | .closed _ => True
  | .closePanics r => isNil r = true ∨ ∃ e, cerr r = some e ∧ pan e = true

theorem ends_step {g g' : G K E} {i : Nat} {op : Op K E} {s : Pt K E} {c : Nat} {r : ResN E} (h : stepN cerr pan isNil g i op s c = some (g', .inr r)) :
    ends cerr pan isNil r := by
  cases op with
  | get k f =>
    simp only [stepN] at h
    split at h <;> simp only [Option.some.injEq, Prod.mk.injEq, Sum.inr.injEq, reduceCtorEq, and_false] at h
    obtain ⟨rfl, rfl⟩ := h
    rename_i o _
    cases o <;> simp only [deliver]
    · split <;> simp_all [ends]
    · split <;> simp_all [ends]
    · trivial
  | remove k =>
    simp only [stepN] at h
    split at h <;> simp only [Option.some.injEq, Prod.mk.injEq, Sum.inr.injEq, reduceCtorEq, and_false] at h
    obtain ⟨rfl, rfl⟩ := h
    trivial
  | close =>
    rcases stepN_cases h with ⟨_, _, _, _, y, _, _, hb, hx⟩ | ⟨_, hx, _⟩ | ⟨r₀, r', hx, hb, he⟩
    · simp only [Sum.inr.injEq] at hx
      subst hx
      simp only [badClose, Bool.or_eq_true] at hb
      rcases hb with hb | hb
      · exact Or.inl hb
      · cases hc : cerr y.2 with
        | none => simp [hc] at hb
        | some e => exact Or.inr ⟨e, hc, by simpa [hc] using hb⟩
    · simp at hx
    · simp only [Sum.inr.injEq] at hx
      subst hx
      obtain ⟨x, rfl⟩ := close_shape he
      cases r <;> simp only [back, Option.some.injEq, reduceCtorEq] at hb
      all_goals first | trivial | (rename_i w; cases w <;> simp at hb)

theorem ends_exec (h : (progN cerr pan isNil).mach.Exec m H) : ∀ i op r, m.view i = some (op, .inr r) → ends cerr pan isNil r := by
  refine (progN cerr pan isNil).induct (fun _ v _ => ∀ i op r, v i = some (op, .inr r) → ends cerr pan isNil r) ?_ ?_ ?_ ?_ h
  · simp
  · intro g v _ i op hi hv j op' r hj
    by_cases hji : j = i
    · subst hji; simp at hj
    · rw [upd_ne _ _ hji] at hj; exact hi j op' r hj
  · intro g v _ i op s c g' x hi hv hs j op' r hj
    by_cases hji : j = i
    · subst hji
      simp only [upd_same, Option.some.injEq, Prod.mk.injEq] at hj
      rw [hj.2] at hs
      exact ends_step hs
    · rw [upd_ne _ _ hji] at hj; exact hi j op' r hj
  · intro g v _ i op r hi _; exact hi

theorem ends_ret (h : (progN cerr pan isNil).mach.Exec m H) {i : Nat} {r : ResN E} (hr : Ev.ret i r ∈ H) : ends cerr pan isNil r := by
  obtain ⟨op, hv⟩ := ((progN cerr pan isNil).hist h).2 i r hr
  exact ends_exec h i op r hv

/-! ## Demonstrations -/

/-- `create` of call 0 panics; call 1, which has waited for it, panics as well; the later call 2 creates the resource. -/
theorem demoPanic : ∃ m, (progN (fun _ => none) (fun _ => true) (fun _ => false) : Prog (G Unit Unit) _ _ _).mach.Exec m
    [.inv 0 (.get () (some ())), .inv 1 (.get () none), .ret 1 (.panics (.create ())), .ret 0 (.panics (.create ())), .inv 2 (.get () none), .ret 2 (.got 2)] ∧
    m.g.log = [.created () 2, .stored () 2] :=
  Mach.exists_exec_state _ [.inv 0 (.get () (some ())), .run 0, .inv 1 (.get () none), .run 1, .run 0, .run 0, .run 0, .run 1, .run 1, .run 0, .run 0,
    .inv 2 (.get () none), .run 2, .run 2, .run 2, .run 2, .run 2, .run 2, .run 2] _ _ (by exact And.intro rfl rfl)

/-- `create` of call 0 fails with an error. -/
theorem demoError : ∃ m, (progN (fun _ => none) (fun _ => false) (fun _ => false) : Prog (G Unit Unit) _ _ _).mach.Exec m
    [.inv 0 (.get () (some ())), .inv 1 (.get () none), .ret 1 (.failed ())] :=
  Mach.exists_exec _ [.inv 0 (.get () (some ())), .run 0, .inv 1 (.get () none), .run 1, .run 0, .run 0, .run 0, .run 1, .run 1] _ rfl

/-! ## C107 -/

/-- C107: a `Get` panics with the panic of a `create` only if that `create` was passed to a `Get` call of the same key that had not ended when this one
began (the call itself or one with which it shares the `create` call). -/
theorem C107_create (h : (progN cerr pan isNil).mach.Exec m H) {i : Nat} {k : K} {f : Option E} {e : E} (hi : Ev.inv i (.get k f) ∈ H)
    (hr : Ev.ret i (.panics (.create e)) ∈ H) : pan e = true ∧ ∃ l, Ev.inv l (.get k (some e)) ∈ H ∧ ¬ Before H l i := by
  refine ⟨ends_ret h hr, ?_⟩
  obtain ⟨m', h', _, _⟩ := refinesN h
  obtain ⟨l, hl, hb⟩ := C30_error_partial h' (inv_seen.2 hi) (ret_seen.2 ⟨_, rfl, hr⟩)
  exact ⟨l, inv_seen.1 hl, fun hc => hb (before_seen h (inv_seen.1 hl) hc)⟩

example := demoPanic.elim fun _ h => C107_create (i := 1) (k := ()) (f := none) (e := ()) h.1 (by simp) (by simp)

/-- C107: an error returned by `Get` is an error returned, not a panic, by a `create` for the same key. -/
theorem C107_error (h : (progN cerr pan isNil).mach.Exec m H) {i : Nat} {k : K} {f : Option E} {e : E} (hi : Ev.inv i (.get k f) ∈ H)
    (hr : Ev.ret i (.failed e) ∈ H) : pan e = false ∧ ∃ l, Ev.inv l (.get k (some e)) ∈ H ∧ ¬ Before H l i := by
  refine ⟨ends_ret h hr, ?_⟩
  obtain ⟨m', h', _, _⟩ := refinesN h
  obtain ⟨l, hl, hb⟩ := C30_error_partial h' (inv_seen.2 hi) (ret_seen.2 ⟨_, rfl, hr⟩)
  exact ⟨l, inv_seen.1 hl, fun hc => hb (before_seen h (inv_seen.1 hl) hc)⟩

example := demoError.elim fun _ h => C107_error (i := 1) (k := ()) (f := none) (e := ()) h (by simp) (by simp)

/-- C107: what `Get` returns is never nil; it is a resource that a `create` for the same key returned. -/
theorem C107_got (h : (progN cerr pan isNil).mach.Exec m H) {i : Nat} {k : K} {f : Option E} {r : Nat} (hi : Ev.inv i (.get k f) ∈ H)
    (hr : Ev.ret i (.got r) ∈ H) : isNil r = false ∧ LogEv.stored k r ∈ m.g.log ∧ Ev.inv r (.get k none) ∈ H := by
  refine ⟨ends_ret h hr, ?_⟩
  obtain ⟨m', h', hg, _⟩ := refinesN h
  obtain ⟨h1, h2⟩ := C30_got h' (inv_seen.2 hi) (ret_seen.2 ⟨.got r, rfl, hr⟩)
  exact ⟨hg ▸ h1, inv_seen.1 h2⟩

example := demoPanic.imp fun _ h => C107_got (i := 2) (k := ()) (f := none) (r := 2) h.1 (by simp) (by simp)

/-- C107: only what a `create` returned without error is ever held; a `create` that panics or fails leaves nothing behind. -/
theorem C107_stored (h : (progN cerr pan isNil).mach.Exec m H) {k : K} {r : Nat} (hr : LogEv.stored k r ∈ m.g.log) : Ev.inv r (.get k none) ∈ H := by
  obtain ⟨m', h', hg, _⟩ := refinesN h
  obtain ⟨x, hx, _⟩ := (inv_exec cerr h').storedView k r (hg ▸ hr)
  exact inv_seen.1 (((prog cerr).hist h').1 r _ |>.2 ⟨x, hx⟩)

example := demoPanic.imp fun _ h => C107_stored (k := ()) (r := 2) h.1 (by simp [h.2])

/-- C107: a `Get` panics for want of a resource only if a `create` for the same key has returned nil without an error. -/
theorem C107_nil (h : (progN cerr pan isNil).mach.Exec m H) {i : Nat} {k : K} {f : Option E} {r : Nat} (hi : Ev.inv i (.get k f) ∈ H)
    (hr : Ev.ret i (.panics (.notCloser r)) ∈ H) : isNil r = true ∧ Ev.inv r (.get k none) ∈ H := by
  refine ⟨ends_ret h hr, ?_⟩
  obtain ⟨m', h', _, _⟩ := refinesN h
  exact inv_seen.1 (C30_got h' (inv_seen.2 hi) (ret_seen.2 ⟨.panics (.notCloser r), rfl, hr⟩)).2

/-- C107 (refuted part): a nil resource is remembered. The `create` of call 0 returns `(nil, nil)`; its caller gets a panic, and so does the later call 1,
whose `create` would succeed but is not called. -/
theorem C107_nil_refuted : ∃ m, (progN (fun _ => none) (fun _ => true) (fun r => r == 0) : Prog (G Unit Unit) _ _ _).mach.Exec m
    [.inv 0 (.get () none), .ret 0 (.panics (.notCloser 0)), .inv 1 (.get () none), .ret 1 (.panics (.notCloser 0))] ∧
    m.g.log = [.created () 0, .stored () 0] :=
  Mach.exists_exec_state _ [.inv 0 (.get () none), .run 0, .run 0, .run 0, .run 0, .run 0, .run 0, .run 0,
    .inv 1 (.get () none), .run 1, .run 1, .run 1, .run 1, .run 1] _ _ (by exact And.intro rfl rfl)

example := C107_nil_refuted.elim fun _ h => C107_nil (i := 1) (k := ()) (f := none) (r := 0) h.1 (by simp) (by simp)

/-- C107: `Close` panics only for a nil resource or for a `Close` method that panics. -/
theorem C107_close_panics (h : (progN cerr pan isNil).mach.Exec m H) {i : Nat} {r : Nat} (hr : Ev.ret i (.closePanics r) ∈ H) :
    isNil r = true ∨ ∃ e, cerr r = some e ∧ pan e = true := ends_ret h hr

/-- C107 (refuted part): a `Close` method that panics makes the manager unusable: the panic leaves `Close` with the lock held, the second resource is
not closed, and neither a `Get` nor a `Remove` nor another `Close` ever gets on. -/
theorem C107_close_refuted : ∃ m, (progN (fun _ => some ()) (fun _ => true) (fun _ => false) : Prog (G Bool Unit) _ _ _).mach.Exec m
    [.inv 0 (.get true none), .ret 0 (.got 0), .inv 1 (.get false none), .ret 1 (.got 1), .inv 2 .close, .ret 2 (.closePanics 1),
      .inv 3 (.get true none), .inv 4 (.remove true), .inv 5 .close] ∧ closedLog m.g.log = [] ∧
    ∀ i c, (progN (fun _ => some ()) (fun _ => true) (fun _ => false) : Prog (G Bool Unit) _ _ _).mach.next m i c = none := by
  refine Mach.exists_exec_state _ [.inv 0 (.get true none), .run 0, .run 0, .run 0, .run 0, .run 0, .run 0, .run 0, .inv 1 (.get false none), .run 1, .run 1,
    .run 1, .run 1, .run 1, .run 1, .run 1, .inv 2 .close, .run 2, .run 2, .run 2, .inv 3 (.get true none), .run 3, .inv 4 (.remove true), .inv 5 .close] _ _ (by
      refine And.intro rfl (And.intro rfl ?_)
      intro i c
      match i with
      | 0 | 1 | 2 | 3 | 4 | 5 => rfl
      | i + 6 => rfl)

example := C107_close_refuted.elim fun _ h => C107_close_panics (i := 2) (r := 1) h.1 (by simp)

theorem closeN_log {g g' : G K E} {i : Nat} {op : Op K E} {s : Pt K E} {c : Nat} {x : Pt K E ⊕ ResN E} (h : stepN cerr pan isNil g i op s c = some (g', x)) :
    ∀ y ∈ closedLog g'.log, y ∈ closedLog g.log ∨ badClose cerr pan isNil y = false := by
  intro y hy
  by_cases ho : op = .close
  · subst ho
    have keep : ∀ s', closeStep cerr g i c s = some (g', s') → (∀ z : List (K × Nat) × BatchError E, s = .closing z.1 z.2 → z.1[c % z.1.length]? = none) → g'.log = g.log := by
      intro s' hs hn
      cases s <;> simp only [closeStep, reduceCtorEq] at hs
      · split at hs
        · simp at hs
        · simp only [Option.some.injEq, Prod.mk.injEq] at hs; rw [← hs.1]
      · rename_i todo be
        have := hn (todo, be) rfl
        split at hs
        · simp only [Option.some.injEq, Prod.mk.injEq] at hs; rw [← hs.1]
        · rw [this] at hs; simp at hs
    have go : closeStepN.go cerr g i c s = some (g', x) → ∃ s', closeStep cerr g i c s = some (g', s') := by
      intro h
      simp only [closeStepN.go] at h
      split at h
      · rename_i he; simp only [Option.some.injEq, Prod.mk.injEq] at h; obtain ⟨rfl, _⟩ := h; exact ⟨_, he⟩
      · rename_i he; simp only [Option.some.injEq, Prod.mk.injEq] at h; obtain ⟨rfl, _⟩ := h; exact ⟨_, he⟩
      · simp at h
    simp only [stepN, closeStepN] at h
    split at h
    · rename_i todo be
      cases hp : todo[c % todo.length]? with
      | none =>
        simp only [hp] at h
        obtain ⟨s', hs⟩ := go h
        left
        rw [keep s' hs (by rintro ⟨a, b⟩ hz; simp only [Pt.closing.injEq] at hz; obtain ⟨rfl, rfl⟩ := hz; exact hp)] at hy
        exact hy
      | some z =>
        simp only [hp] at h
        split at h
        · simp only [Option.some.injEq, Prod.mk.injEq] at h; rw [h.1]; exact Or.inl hy
        · rename_i hb
          obtain ⟨s', hs⟩ := go h
          simp only [closeStep] at hs
          split at hs
          · simp at hp
          · simp only [hp, Option.some.injEq, Prod.mk.injEq] at hs
            rw [← hs.1] at hy
            simp only [closedLog_append, List.mem_append, List.mem_singleton] at hy
            rcases hy with hy | rfl
            · exact Or.inl hy
            · exact Or.inr (by simpa using hb)
    · rename_i hne
      obtain ⟨s', hs⟩ := go h
      left
      rw [keep s' hs (by rintro ⟨a, b⟩ hz; exact absurd hz (hne a b))] at hy
      exact hy
  · left
    have hq : ∃ x', (prog cerr).step g i op s c = some (g', x') := by
      rcases stepN_cases h with ⟨_, hc, _⟩ | ⟨_, _, he⟩ | ⟨_, _, _, _, he⟩
      · exact absurd hc ho
      · exact ⟨_, he⟩
      · exact ⟨_, he⟩
    obtain ⟨x', hq⟩ := hq
    cases op with
    | close => exact absurd rfl ho
    | get k f =>
      simp only [prog, getStep] at hq
      cases s <;> simp only [reduceCtorEq] at hq
      all_goals (try (repeat' split at hq)) <;> simp only [Option.some.injEq, Prod.mk.injEq, reduceCtorEq] at hq
      all_goals (obtain ⟨rfl, _⟩ := hq; simpa [closedLog] using hy)
    | remove k =>
      simp only [prog, removeStep] at hq
      cases s <;> simp only [reduceCtorEq] at hq
      all_goals (try (repeat' split at hq)) <;> simp only [Option.some.injEq, Prod.mk.injEq, reduceCtorEq] at hq
      all_goals (obtain ⟨rfl, _⟩ := hq; simpa [closedLog] using hy)

/-- C107 (partial: a `Close` that does not panic): it has called the `Close` method of every resource held once, none of them nil and none of them
panicking, and reports all their errors. -/
theorem C107_close_partial (h : (progN cerr pan isNil).mach.Exec m H) {i : Nat} {r : Res E} (hi : Ev.inv i .close ∈ H) (hr : Ev.ret i (.closed r) ∈ H) :
    (∀ x, x ∈ closedLog m.g.log ↔ ∃ k, held k m.g.log = some x) ∧ (closedLog m.g.log).Nodup ∧
    (∀ x ∈ closedLog m.g.log, isNil x = false ∧ ∀ e, cerr x = some e → pan e = false) ∧
    ((∀ j, Ev.inv j .close ∈ H → j = i) → r = report ((closedLog m.g.log).filterMap cerr)) := by
  obtain ⟨m', h', hg, _⟩ := refinesN h
  obtain ⟨h1, h2, h3⟩ := C31_close h' (inv_seen.2 hi) (ret_seen.2 ⟨.closed r, rfl, hr⟩)
  rw [hg] at h1 h2 h3
  refine ⟨h1, h2, ?_, fun hu => ?_⟩
  · have key : ∀ x ∈ closedLog m.g.log, badClose cerr pan isNil x = false := by
      refine (progN cerr pan isNil).induct (fun g _ _ => ∀ x ∈ closedLog g.log, badClose cerr pan isNil x = false) ?_ ?_ ?_ ?_ h
      · simp [progN, new, closedLog]
      · intro g v _ i op hi hv; exact hi
      · intro g v _ i op s c g' x hi hv hs y hy
        rcases closeN_log hs y hy with h4 | h4
        · exact hi y h4
        · exact h4
      · intro g v _ i op r hi _; exact hi
    intro x hx
    have := key x hx
    simp only [badClose, Bool.or_eq_false_iff] at this
    exact ⟨this.1, fun e he => by simpa [he] using this.2⟩
  · have := h3 fun j hj => hu j (inv_seen.1 hj)
    simpa using this

/-- Two resources, one removed, the other closed with an error. -/
theorem demoClose : ∃ m, (progN (fun r => some r) (fun e => e == 0) (fun _ => false) : Prog (G Bool Nat) _ _ _).mach.Exec m
    [.inv 0 (.get true none), .ret 0 (.got 0), .inv 1 (.get false none), .ret 1 (.got 1), .inv 2 (.remove true), .ret 2 (.removed true),
      .inv 3 .close, .ret 3 (.closed (.one 1))] ∧
    m.g.log = [.created true 0, .stored true 0, .created false 1, .stored false 1, .removed true 0, .closed 1] :=
  Mach.exists_exec_state _ [.inv 0 (.get true none), .run 0, .run 0, .run 0, .run 0, .run 0, .run 0, .run 0, .inv 1 (.get false none), .run 1, .run 1,
    .run 1, .run 1, .run 1, .run 1, .run 1, .inv 2 (.remove true), .run 2, .run 2, .inv 3 .close, .run 3, .run 3, .run 3, .run 3] _ _ (by exact And.intro rfl rfl)

example := demoClose.imp fun _ h => C107_close_partial (i := 3) h.1 (by simp) (r := .one 1) (by simp)

/-- A step that is possible in `ResMan.lean` is possible here, perhaps as a panic. -/
theorem stepN_enabled {g g' : G K E} {i : Nat} {op : Op K E} {s : Pt K E} {c : Nat} {x : Pt K E ⊕ Res' E}
    (h : (prog cerr).step g i op s c = some (g', x)) : stepN cerr pan isNil g i op s c ≠ none := by
  cases op with
  | get k f =>
    have hs : getStep g i k f s = some (g', x) := h
    simp only [stepN, hs]
    cases x with
    | inl s' => simp
    | inr r =>
      cases r with
      | get o => simp
      | removed b => cases s <;> simp only [getStep, reduceCtorEq] at hs <;> (repeat' split at hs) <;> simp at hs
      | closed b => cases s <;> simp only [getStep, reduceCtorEq] at hs <;> (repeat' split at hs) <;> simp at hs
  | remove k =>
    have hs : removeStep g i k s = some (g', x) := h
    simp only [stepN, hs]
    cases x with
    | inl s' => simp
    | inr r =>
      cases r with
      | removed b => simp
      | get o => cases s <;> simp only [removeStep, reduceCtorEq] at hs <;> (repeat' split at hs) <;> simp at hs
      | closed b => cases s <;> simp only [removeStep, reduceCtorEq] at hs <;> (repeat' split at hs) <;> simp at hs
  | close =>
    have hs : closeStep cerr g i c s = some (g', x) := h
    have go : closeStepN.go cerr g i c s ≠ none := by
      simp only [closeStepN.go, hs]
      cases x with
      | inl s' => simp
      | inr r => obtain ⟨y, rfl⟩ := close_shape hs; simp
    simp only [stepN, closeStepN]
    split
    · split
      · split
        · simp
        · exact go
      · exact go
    · exact go

/-- C107 (partial: no call has used the manager after `Close`, and no `Close` has panicked): panics of `create` and nil resources never block
anything: whenever a call is pending, some call can go on. -/
theorem C107_no_deadlock_partial (h : (progN cerr pan isNil).mach.Exec m H) {i : Nat} {op : Op K E} (hi : Ev.inv i op ∈ H) (hr : ∀ r, Ev.ret i r ∉ H)
    (hp : ∀ j, Ev.ret j (.panics .nilMap) ∉ H) (hc : ∀ j x, Ev.ret j (.closePanics x) ∉ H) : ∃ j c, (progN cerr pan isNil).mach.next m j c ≠ none := by
  obtain ⟨m', h', hg, hS⟩ := refinesN h
  by_cases hcp : ∃ j o x, m.view j = some (o, .inr (.closePanics x))
  · obtain ⟨j, o, x, hj⟩ := hcp
    refine ⟨j, 0, ?_⟩
    simp only [Conf.view] at hj
    cases hpc : m.pc j <;> rw [hpc] at hj <;> simp only [Proc.view, Option.some.injEq, Prod.mk.injEq, Sum.inr.injEq, reduceCtorEq, and_false] at hj
    · simp [Prog.mach, hpc]
    · exact absurd ((progN cerr pan isNil).done_mem h hpc) (by rw [hj.2]; exact hc j x)
  · obtain ⟨j, c, hn⟩ := C32_no_deadlock_partial h' (inv_seen.2 hi) (fun r hr' => by
      obtain ⟨r₀, _, h0⟩ := ret_seen.1 hr'; exact hr r₀ h0) (fun j hj => by
      obtain ⟨r₀, hb, h0⟩ := ret_seen.1 hj
      cases r₀ <;> simp only [back, Option.some.injEq, Res'.get.injEq, reduceCtorEq] at hb
      rename_i w
      cases w <;> simp only [Option.some.injEq, Res'.get.injEq, reduceCtorEq] at hb
      exact hp j h0)
    refine ⟨j, c, ?_⟩
    have hSj := hS j
    simp only [Prog.mach] at hn ⊢
    cases hpc : m'.pc j with
    | idle => simp [hpc] at hn
    | done o r => simp [hpc] at hn
    | «at» o s =>
      have hw : m'.view j = some (o, .inl s) := by simp [Conf.view, hpc, Proc.view]
      cases hv : m.view j with
      | none => simp [hv, hw] at hSj
      | some z =>
        obtain ⟨o', x⟩ := z
        cases x with
        | inr r =>
          simp only [hv, hw] at hSj
          cases hb : back r with
          | none =>
            cases r <;> simp only [back, reduceCtorEq] at hb
            · rename_i w; cases w <;> simp at hb
            · exact absurd ⟨j, o', _, hv⟩ hcp
          | some r' => simp [hb] at hSj
        | inl s' =>
          simp only [hv, hw, Option.some.injEq, Prod.mk.injEq, Sum.inl.injEq] at hSj
          obtain ⟨rfl, rfl⟩ := hSj
          have hpc' : m.pc j = .at o s := by
            simp only [Conf.view] at hv
            cases hq : m.pc j <;> simp [hq, Proc.view] at hv
            rw [hv.1, hv.2]
          simp only [hpc] at hn
          simp only [hpc']
          cases hst : (prog cerr).step m'.g j o s c with
          | none => simp [hst] at hn
          | some y =>
            have := stepN_enabled (pan := pan) (isNil := isNil) hst
            rw [hg] at this
            change stepN cerr pan isNil m.g j o s c ≠ none at this
            cases hst' : (progN cerr pan isNil).step m.g j o s c with
            | none => exact absurd hst' this
            | some y' => obtain ⟨g', x⟩ := y'; cases x <;> simp
    | ret o r' =>
      have hw : m'.view j = some (o, .inr r') := by simp [Conf.view, hpc, Proc.view]
      cases hpc' : m.pc j with
      | idle => simp [Conf.view, hpc', hpc, Proc.view] at hSj
      | «at» o' s => simp [Conf.view, hpc', hpc, Proc.view] at hSj
      | ret o' r => simp
      | done o' r =>
        have h0 := (progN cerr pan isNil).done_mem h hpc'
        have hv : m.view j = some (o', .inr r) := by simp [Conf.view, hpc', Proc.view]
        simp only [hv, hw] at hSj
        cases hb : back r with
        | none => simp [hb] at hSj
        | some r'' =>
          obtain ⟨o'', hd⟩ := (prog cerr).mem_done h' _ _ (ret_seen.2 ⟨r, hb, h0⟩)
          rw [hpc] at hd
          simp at hd

/-- Call 1 waits for the `create` of call 0, which is going to panic. -/
example : ∃ m, (progN (fun _ => none) (fun _ => true) (fun _ => false) : Prog (G Unit Unit) _ _ _).mach.Exec m
    [.inv 0 (.get () (some ())), .inv 1 (.get () none)] ∧ m.pc 1 = .at (.get () none) (.wait 0) :=
  Mach.exists_exec_state _ [.inv 0 (.get () (some ())), .run 0, .inv 1 (.get () none), .run 1] _ _ (by exact And.intro rfl rfl)

end Verif.XSync.ResMan

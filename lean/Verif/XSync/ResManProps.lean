import Verif.XSync.ResManExt
/-! # Property theorems for `xsync.ResourceManager` (C30, C31, C32, C81) -/
namespace Verif.XSync.ResMan
open Verif.Conc Verif.XError

variable {K E : Type} [DecidableEq K] {cerr : Nat → Option E} {m : Conf (G K E) (Op K E) (Res' E) (Pt K E)} {H : List (Ev (Op K E) (Res' E))}

theorem no_close (h : (prog cerr).mach.Exec m H) (hc : ∀ i, Ev.inv i .close ∉ H) : m.g.res ≠ none := by
  intro hr
  obtain ⟨j, r, hj⟩ := (inv_exec cerr h).resNone hr
  exact hc j (((prog cerr).hist h).1 j .close |>.2 ⟨_, hj⟩)

/-- Two concurrent `Get` calls share the resource of one `create` call; after a `Remove`, another one is created. -/
theorem demo : ∃ m, (prog (fun _ => (none : Option Unit)) : Prog (G Unit Unit) _ _ _).mach.Exec m
    [.inv 0 (.get () none), .inv 1 (.get () none), .ret 0 (.get (.got 0)), .ret 1 (.get (.got 0)), .inv 2 (.remove ()), .ret 2 (.removed true),
      .inv 3 (.get () none), .ret 3 (.get (.got 3))] ∧ m.g.log = [.created () 0, .stored () 0, .removed () 0, .created () 3, .stored () 3] :=
  Mach.exists_exec_state _ [.inv 0 (.get () none), .inv 1 (.get () none), .run 0, .run 1, .run 0, .run 0, .run 0, .run 0, .run 0, .run 0, .run 1, .run 1,
    .inv 2 (.remove ()), .run 2, .run 2, .inv 3 (.get () none), .run 3, .run 3, .run 3, .run 3, .run 3, .run 3, .run 3] _ _ (by exact And.intro rfl rfl)


/-- A `create` fails for the leader and for the call that waits for it. -/
theorem demoFailed : ∃ m, (prog (fun _ => (none : Option Unit)) : Prog (G Unit Unit) _ _ _).mach.Exec m
    [.inv 0 (.get () (some ())), .inv 1 (.get () none), .ret 1 (.get (.failed ()))] :=
  Mach.exists_exec _ [.inv 0 (.get () (some ())), .run 0, .inv 1 (.get () none), .run 1, .run 0, .run 0, .run 0, .run 1, .run 1] _ rfl

/-- C30: without `Close`, between two successful `create` calls for a key the resource of that key has been removed. -/
theorem C30_create_once (h : (prog cerr).mach.Exec m H) (hc : ∀ i, Ev.inv i .close ∉ H) (k : K) (i j : Nat) (l₁ l₂ l₃ : List (LogEv K))
    (hl : m.g.log = l₁ ++ .created k i :: (l₂ ++ .created k j :: l₃)) : ∃ r, LogEv.removed k r ∈ l₂ :=
  (inv_exec cerr h).pairs k i j l₁ l₂ l₃ (no_close h hc) hl

example := demo.elim fun _ h => C30_create_once h.1 (by simp) () 0 3 [] [.stored () 0, .removed () 0] [.stored () 3] h.2

/-- C30: removals are what `Remove` calls of that key do. -/
theorem C30_removed_by (h : (prog cerr).mach.Exec m H) (k : K) (r : Nat) (hr : LogEv.removed k r ∈ m.g.log) :
    ∃ c, Ev.inv c (.remove k) ∈ H := by
  obtain ⟨c, _, hv⟩ := (ext_exec cerr h).2.removed k r hr
  exact ⟨c, ((prog cerr).hist h).1 c _ |>.2 ⟨_, hv⟩⟩

example := demo.elim fun _ h => C30_removed_by h.1 () 0 (by simp [h.2])

/-- C30: what `Get(key)` returns without error is a resource that a `Get` call of the same key with a successful `create`
has entered under that key. -/
theorem C30_got (h : (prog cerr).mach.Exec m H) {i : Nat} {k : K} {f : Option E} {r : Nat} (hi : Ev.inv i (.get k f) ∈ H)
    (hr : Ev.ret i (.get (.got r)) ∈ H) : LogEv.stored k r ∈ m.g.log ∧ Ev.inv r (.get k none) ∈ H := by
  have hv := (prog cerr).ret_view h hi hr
  have hs : LogEv.stored k r ∈ m.g.log := (inv_exec cerr h).carry i k f _ (.got r) hv rfl
  obtain ⟨x, hx, _⟩ := (inv_exec cerr h).storedView k r hs
  exact ⟨hs, ((prog cerr).hist h).1 r _ |>.2 ⟨_, hx⟩⟩

example := demo.imp fun _ h => C30_got (i := 1) (k := ()) (f := none) (r := 0) h.1 (by simp) (by simp)

/-- What a step may append to the log. -/
theorem log_step {g g' : G K E} {i : Nat} {op : Op K E} {s : Pt K E} {c : Nat} {x : Pt K E ⊕ Res' E}
    (hs : (prog cerr).step g i op s c = some (g', x)) :
    g'.log = g.log ∨ ∃ e, g'.log = g.log ++ [e] ∧ ∀ k r, e = .stored k r → r = i ∧ s = .store ∧ ∃ f, op = .get k f := by
  cases op with
  | get k f =>
    simp only [prog] at hs
    cases s <;> simp only [getStep] at hs <;> (repeat' split at hs) <;> simp only [Option.some.injEq, Prod.mk.injEq, reduceCtorEq] at hs <;>
      obtain ⟨rfl, rfl⟩ := hs
    all_goals first | exact Or.inl rfl | skip
    all_goals
      right
      refine ⟨_, rfl, ?_⟩
      simp only [LogEv.stored.injEq, reduceCtorEq, false_imp_iff, implies_true, and_imp]
    rintro k' r rfl rfl
    exact ⟨rfl, trivial, f, rfl⟩
  | remove k =>
    simp only [prog] at hs
    cases s <;> simp only [removeStep] at hs <;> (repeat' split at hs) <;> simp only [Option.some.injEq, Prod.mk.injEq, reduceCtorEq] at hs <;>
      obtain ⟨rfl, rfl⟩ := hs
    all_goals first | exact Or.inl rfl | skip
    all_goals
      right
      refine ⟨_, rfl, ?_⟩
      simp
  | close =>
    simp only [prog] at hs
    cases s <;> simp only [closeStep] at hs <;> (repeat' split at hs) <;> simp only [Option.some.injEq, Prod.mk.injEq, reduceCtorEq] at hs <;>
      obtain ⟨rfl, rfl⟩ := hs
    all_goals first | exact Or.inl rfl | skip
    all_goals
      right
      refine ⟨_, rfl, ?_⟩
      simp

/-- Only created resources are entered. -/
theorem stored_created (h : (prog cerr).mach.Exec m H) : ∀ k r, LogEv.stored k r ∈ m.g.log → LogEv.created k r ∈ m.g.log := by
  have key : Inv cerr m.g m.view ∧ ∀ k r, LogEv.stored k r ∈ m.g.log → LogEv.created k r ∈ m.g.log := by
    refine (prog cerr).induct (fun g v _ => Inv cerr g v ∧ ∀ k r, LogEv.stored k r ∈ g.log → LogEv.created k r ∈ g.log) ?_ ?_ ?_ ?_ h
    · exact ⟨inv_init cerr, by simp [prog, new]⟩
    · rintro g v _ i op ⟨hi, hs⟩ hv; exact ⟨inv_inv hi i op hv, hs⟩
    · rintro g v _ i op s c g' x ⟨hi, hs⟩ hv hst
      refine ⟨inv_step hi hv hst, ?_⟩
      rcases log_step hst with e | ⟨e', e, hne⟩
      · rw [e]; exact hs
      · rw [e]
        intro k r hm
        simp only [List.mem_append, List.mem_singleton] at hm ⊢
        rcases hm with hm | hm
        · exact Or.inl (hs k r hm)
        · obtain ⟨rfl, rfl, f, rfl⟩ := hne k r hm.symm
          exact Or.inl (hi.store _ _ _ hv).2
    · rintro g v _ i op r ⟨hi, hs⟩ hv; exact ⟨hi, hs⟩
  exact key.2

/-- C30: without `Close` and `Remove(key)`, all `Get(key)` calls that return without error return the same resource, however
many run concurrently, and `create` has succeeded for this one only. -/
theorem C30_same (h : (prog cerr).mach.Exec m H) (hc : ∀ i, Ev.inv i .close ∉ H) {k : K} (hk : ∀ i, Ev.inv i (.remove k) ∉ H) :
    (∀ i j f f' r r', Ev.inv i (.get k f) ∈ H → Ev.ret i (.get (.got r)) ∈ H → Ev.inv j (.get k f') ∈ H → Ev.ret j (.get (.got r')) ∈ H → r = r') ∧
    ∀ r r', LogEv.created k r ∈ m.g.log → LogEv.created k r' ∈ m.g.log → r = r' := by
  have key : ∀ r r', LogEv.created k r ∈ m.g.log → LogEv.created k r' ∈ m.g.log → r = r' := by
    intro r r' hr hr'
    by_contra hne
    have hno : ∀ r2, LogEv.removed k r2 ∉ m.g.log := by
      intro r2 h2
      obtain ⟨c, hc'⟩ := C30_removed_by h k r2 h2
      exact hk c hc'
    obtain ⟨l₁, l₂, hl⟩ := List.append_of_mem hr
    rw [hl] at hr'
    simp only [List.mem_append, List.mem_cons, LogEv.created.injEq, true_and] at hr'
    rcases hr' with h1 | h1 | h1
    · obtain ⟨l₃, l₄, rfl⟩ := List.append_of_mem h1
      obtain ⟨r2, h2⟩ := C30_create_once h hc k r' r l₃ l₄ l₂ (by rw [hl]; simp)
      exact hno r2 (by rw [hl]; simp [h2])
    · exact hne h1.symm
    · obtain ⟨l₃, l₄, rfl⟩ := List.append_of_mem h1
      obtain ⟨r2, h2⟩ := C30_create_once h hc k r r' l₁ l₃ l₄ hl
      exact hno r2 (by rw [hl]; simp [h2])
  refine ⟨fun i j f f' r r' hi hri hj hrj => ?_, key⟩
  exact key r r' (stored_created h _ _ (C30_got h hi hri).1) (stored_created h _ _ (C30_got h hj hrj).1)

/-- The two concurrent calls of `demo`, before the `Remove`. -/
example : ∃ m, (prog (fun _ => (none : Option Unit)) : Prog (G Unit Unit) _ _ _).mach.Exec m
    [.inv 0 (.get () none), .inv 1 (.get () none), .ret 0 (.get (.got 0)), .ret 1 (.get (.got 0))] :=
  Mach.exists_exec _ [.inv 0 (.get () none), .inv 1 (.get () none), .run 0, .run 1, .run 0, .run 0, .run 0, .run 0, .run 0, .run 0, .run 1, .run 1] _ rfl

/-- C30: an error returned by `Get(key)` is the error of a `create` passed to a `Get` call of the same key that had not
returned before this call was made: errors are not kept beyond the call that ran into them. -/
theorem C30_error_partial (h : (prog cerr).mach.Exec m H) {i : Nat} {k : K} {f : Option E} {e : E} (hi : Ev.inv i (.get k f) ∈ H)
    (hr : Ev.ret i (.get (.failed e)) ∈ H) : ∃ l, Ev.inv l (.get k (some e)) ∈ H ∧ ¬ Before H l i := by
  obtain ⟨l, x, hl, hb⟩ := (ext_exec cerr h).2.failed i k f e ((prog cerr).ret_view h hi hr)
  exact ⟨l, ((prog cerr).hist h).1 l _ |>.2 ⟨_, hl⟩, hb⟩

example := demoFailed.elim fun _ h => C30_error_partial (i := 1) (k := ()) (f := none) (e := ()) h (by simp) (by simp)

/-- C30 (refuted part): "a failed `create` is not remembered" fails in a small window. Call 0 leads and its `create` fails;
call 1 has waited for it and returns the error; call 2, made after that, with a `create` that would succeed, still gets the old
error. -/
theorem C30_error_refuted : ∃ m, (prog (fun _ => (none : Option Unit)) : Prog (G Unit Unit) _ _ _).mach.Exec m
    [.inv 0 (.get () (some ())), .inv 1 (.get () none), .ret 1 (.get (.failed ())), .inv 2 (.get () none), .ret 2 (.get (.failed ()))] :=
  Mach.exists_exec _ [.inv 0 (.get () (some ())), .run 0, .inv 1 (.get () none), .run 1, .run 0, .run 0, .run 0, .run 1, .run 1,
    .inv 2 (.get () none), .run 2, .run 2, .run 2] _ rfl

/-- C81 (refuted): a `Get` made after `Remove` has returned can still return the removed resource: it joins the flight of an
older `Get` that has read the map before the `Remove`. -/
theorem C81_stale_refuted : ∃ m, (prog (fun _ => (none : Option Unit)) : Prog (G Unit Unit) _ _ _).mach.Exec m
    [.inv 0 (.get () none), .ret 0 (.get (.got 0)), .inv 1 (.get () none), .inv 2 (.remove ()), .ret 2 (.removed true),
      .inv 3 (.get () none), .ret 1 (.get (.got 0)), .ret 3 (.get (.got 0))] ∧ m.g.log = [.created () 0, .stored () 0, .removed () 0] :=
  Mach.exists_exec_state _ [.inv 0 (.get () none), .run 0, .run 0, .run 0, .run 0, .run 0, .run 0, .run 0, .inv 1 (.get () none), .run 1, .run 1,
    .inv 2 (.remove ()), .run 2, .run 2, .inv 3 (.get () none), .run 3, .run 1, .run 1, .run 1, .run 3, .run 3] _ _ (by exact And.intro rfl rfl)

/-- C81 (partial): a `Get` returns a resource removed by `Remove` call `c` that had returned before only if another `Get` of
the same key was made before `c` returned and had not returned when this `Get` was made. -/
theorem C81_stale_partial (h : (prog cerr).mach.Exec m H) {i c r : Nat} {k : K} {f : Option E} (hi : Ev.inv i (.get k f) ∈ H)
    (hr : Ev.ret i (.get (.got r)) ∈ H) (hc : m.g.remBy r = some c) (hb : Before H c i) :
    ∃ l f', l ≠ i ∧ Ev.inv l (.get k f') ∈ H ∧ ¬ Before H c l ∧ ¬ Before H l i := by
  obtain ⟨l, f', x, hl, h1, h2⟩ := (ext_exec cerr h).2.got i k f r ((prog cerr).ret_view h hi hr)
  refine ⟨l, f', ?_, ((prog cerr).hist h).1 l _ |>.2 ⟨_, hl⟩, h2 c hc, h1⟩
  rintro rfl
  exact h2 c hc hb

/-- The run of `C81_stale_refuted` meets the hypotheses. -/
example : ∃ m, (prog (fun _ => (none : Option Unit)) : Prog (G Unit Unit) _ _ _).mach.Exec m
    [.inv 0 (.get () none), .ret 0 (.get (.got 0)), .inv 1 (.get () none), .inv 2 (.remove ()), .ret 2 (.removed true),
      .inv 3 (.get () none), .ret 1 (.get (.got 0)), .ret 3 (.get (.got 0))] ∧ m.g.remBy 0 = some 2 :=
  Mach.exists_exec_state _ [.inv 0 (.get () none), .run 0, .run 0, .run 0, .run 0, .run 0, .run 0, .run 0, .inv 1 (.get () none), .run 1, .run 1,
    .inv 2 (.remove ()), .run 2, .run 2, .inv 3 (.get () none), .run 3, .run 1, .run 1, .run 1, .run 3, .run 3] _ _ (by exact And.intro rfl rfl)

/-- C81: `remBy` records the `Remove` calls that removed something. -/
theorem C81_remBy (h : (prog cerr).mach.Exec m H) (k : K) (r : Nat) (hr : LogEv.removed k r ∈ m.g.log) :
    ∃ c, m.g.remBy r = some c ∧ Ev.inv c (.remove k) ∈ H := by
  obtain ⟨c, h1, hv⟩ := (ext_exec cerr h).2.removed k r hr
  exact ⟨c, h1, ((prog cerr).hist h).1 c _ |>.2 ⟨_, hv⟩⟩

example := demo.imp fun _ h => C81_remBy h.1 () 0 (by simp [h.2])

/-- Once a `Close` is through, the map is nil; a single `Close` closes all that is ever closed. -/
theorem close_inv (h : (prog cerr).mach.Exec m H) : (∀ i r, m.view i = some (.close, .inr r) → m.g.res = none) ∧
    ∀ i x, m.view i = some (.close, x) → x ≠ .inl .lock → (∀ j x', m.view j = some (.close, x') → j = i) → closedLog m.g.log = m.g.closedBy i := by
  have key : Inv cerr m.g m.view ∧ (∀ i r, m.view i = some (.close, .inr r) → m.g.res = none) ∧
      ∀ i x, m.view i = some (.close, x) → x ≠ .inl .lock → (∀ j x', m.view j = some (.close, x') → j = i) → closedLog m.g.log = m.g.closedBy i := by
    refine (prog cerr).induct (fun g v _ => Inv cerr g v ∧ (∀ i r, v i = some (.close, .inr r) → g.res = none) ∧
      ∀ i x, v i = some (.close, x) → x ≠ .inl .lock → (∀ j x', v j = some (.close, x') → j = i) → closedLog g.log = g.closedBy i) ?_ ?_ ?_ ?_ h
    · exact ⟨inv_init cerr, by simp, by simp⟩
    · rintro g v _ i op ⟨hi, h1, h2⟩ hv
      refine ⟨inv_inv hi i op hv, ?_⟩
      generalize hv' : upd v i _ = v'
      obtain ⟨u1, u2, u3⟩ := upd_facts hv'
      clear hv' hi
      cases op <;> simp only [prog] at u1 <;> constructor <;> grind
    · rintro g v _ i op s c g' x ⟨hi, h1, h2⟩ hv hst
      refine ⟨inv_step hi hv hst, ?_⟩
      have hcl := hi.closing
      have hop := hi.open'
      have hlk := hi.locked
      have hno := hi.resNone
      generalize hv' : upd v i _ = v'
      obtain ⟨u1, u2, u3⟩ := upd_facts hv'
      clear hv' hi
      cases op with
      | get k f =>
        simp only [prog] at hst
        cases s <;> simp only [getStep] at hst <;> (repeat' split at hst) <;> simp only [Option.some.injEq, Prod.mk.injEq, reduceCtorEq] at hst <;>
          obtain ⟨rfl, rfl⟩ := hst
        all_goals clear hop hcl hlk hno; constructor <;> grind [closedLog_append]
      | remove k =>
        simp only [prog] at hst
        cases s <;> simp only [removeStep] at hst <;> (repeat' split at hst) <;> simp only [Option.some.injEq, Prod.mk.injEq, reduceCtorEq] at hst <;>
          obtain ⟨rfl, rfl⟩ := hst
        all_goals clear hop hcl hlk hno; constructor <;> grind [closedLog_append]
      | close =>
        simp only [prog] at hst
        cases s <;> simp only [closeStep] at hst <;> (repeat' split at hst) <;> simp only [Option.some.injEq, Prod.mk.injEq, reduceCtorEq] at hst <;>
          obtain ⟨rfl, rfl⟩ := hst
        · refine ⟨by clear * - h1 u1 u2 u3 hv; grind, fun j x hj hx hu => ?_⟩
          have hji : i = j := hu i _ u1
          subst hji
          have hres : g.res ≠ none := by
            intro hr
            obtain ⟨j', r, hj'⟩ := hno hr
            have hne : j' ≠ i := by rintro rfl; rw [hv] at hj'; simp at hj'
            exact hne (hu j' _ (by rw [u2 _ hne]; exact hj'))
          have hwl : g.wlock = none := by cases hw : g.wlock <;> simp_all
          simp [hop hres hwl]
        · clear hlk; constructor <;> grind
        · refine ⟨by clear * - h1 u1 u2 u3 hv; grind, fun j x hj hx hu => ?_⟩
          have hji : i = j := hu i _ u1
          subst hji
          simp only [closedLog_append, upd_same]
          rw [h2 i _ hv (by simp) (fun j x' hj => ?_)]
          by_contra hne
          exact hne (hu j x' (by rw [u2 _ hne]; exact hj))
    · rintro g v _ i op r ⟨hi, hs⟩ hv; exact ⟨hi, hs⟩
  exact key.2

theorem addAll_errs (be : BatchError E) (l : List (Option E)) : (addAll be l).errs = be.errs ++ l.filterMap id := by
  induction l generalizing be with
  | nil => simp [addAll]
  | cons a l ih =>
    rw [addAll, ih]
    cases a <;> simp [BatchError.add]

/-- C31: when a `Close` has returned, the resources closed are exactly those held (entered and not removed), each has been
closed exactly once, and a single `Close` call reports exactly their errors, in the order of closing. -/
theorem C31_close (h : (prog cerr).mach.Exec m H) {i : Nat} {r : Res' E} (hi : Ev.inv i .close ∈ H) (hr : Ev.ret i r ∈ H) :
    (∀ x, x ∈ closedLog m.g.log ↔ ∃ k, held k m.g.log = some x) ∧ (closedLog m.g.log).Nodup ∧
    ((∀ j, Ev.inv j .close ∈ H → j = i) → r = .closed (report ((closedLog m.g.log).filterMap cerr))) := by
  have hv := (prog cerr).ret_view h hi hr
  have hI := inv_exec cerr h
  have hJ := close_inv h
  refine ⟨(ext_exec cerr h).2.closedHeld (hJ.1 i r hv), hI.nodupClosed, fun hone => ?_⟩
  have := hJ.2 i _ hv (by simp) (fun j x hj => hone j (((prog cerr).hist h).1 j _ |>.2 ⟨_, hj⟩))
  rw [(hI.closed i r hv).1, this]
  congr 1
  have e := addAll_errs .zero ((m.g.closedBy i).map cerr)
  simp only [BatchError.zero, List.nil_append, List.filterMap_map] at e
  simp only [BatchError.err, BatchError.zero, e]
  rfl

/-- Two resources are created, one is removed, the other one is closed and its error reported. -/
example : ∃ m, (prog (fun r => some r) : Prog (G Bool Nat) _ _ _).mach.Exec m
    [.inv 0 (.get true none), .ret 0 (.get (.got 0)), .inv 1 (.get false none), .ret 1 (.get (.got 1)), .inv 2 (.remove true), .ret 2 (.removed true),
      .inv 3 .close, .ret 3 (.closed (.one 1))] ∧
    m.g.log = [.created true 0, .stored true 0, .created false 1, .stored false 1, .removed true 0, .closed 1] :=
  Mach.exists_exec_state _ [.inv 0 (.get true none), .run 0, .run 0, .run 0, .run 0, .run 0, .run 0, .run 0, .inv 1 (.get false none), .run 1, .run 1,
    .run 1, .run 1, .run 1, .run 1, .run 1, .inv 2 (.remove true), .run 2, .run 2, .inv 3 .close, .run 3, .run 3, .run 3, .run 3] _ _ (by exact And.intro rfl rfl)

/-- C32 (refuted): a `Get` with a successful `create` after `Close` panics, and then nobody can use the manager: a `Remove`
made after that never returns, whatever is done. -/
theorem C32_after_close_refuted : ∃ m, (prog (fun _ => (none : Option Unit)) : Prog (G Unit Unit) _ _ _).mach.Exec m
    [.inv 0 .close, .ret 0 (.closed .nil), .inv 1 (.get () none), .ret 1 (.get .panic), .inv 2 (.remove ())] ∧
    ∀ i c, (prog (fun _ => (none : Option Unit)) : Prog (G Unit Unit) _ _ _).mach.next m i c = none := by
  refine Mach.exists_exec_state _ [.inv 0 .close, .run 0, .run 0, .run 0, .inv 1 (.get () none), .run 1, .run 1, .run 1, .run 1, .run 1, .run 1, .run 1,
    .inv 2 (.remove ())] _ _ (by
      refine And.intro rfl ?_
      intro i c
      match i with
      | 0 => rfl
      | 1 => rfl
      | 2 => rfl
      | n + 3 => rfl)

/-- C32 (partial): `Get` panics only if a `Close` call has been made. -/
theorem C32_panic_partial (h : (prog cerr).mach.Exec m H) {i : Nat} {k : K} {f : Option E} (hi : Ev.inv i (.get k f) ∈ H)
    (hr : Ev.ret i (.get .panic) ∈ H) : ∃ j, Ev.inv j .close ∈ H := by
  have hn : m.g.res = none := (inv_exec cerr h).carry i k f _ .panic ((prog cerr).ret_view h hi hr) rfl
  obtain ⟨j, r, hj⟩ := (inv_exec cerr h).resNone hn
  exact ⟨j, ((prog cerr).hist h).1 j .close |>.2 ⟨_, hj⟩⟩

example := C32_after_close_refuted.elim fun _ h => C32_panic_partial (i := 1) (k := ()) (f := none) h.1 (by simp) (by simp)

/-- The points at which the operations can be. -/
def typed : Op K E → Pt K E ⊕ Res' E → Bool
  | .get _ _, .inl .start | .get _ _, .inl (.wait _) | .get _ _, .inl .lookup | .get _ _, .inl .create | .get _ _, .inl .store
  | .get _ _, .inl (.finish _) | .get _ _, .inl (.drop _) | .get _ _, .inr (.get _) => true
  | .remove _, .inl .remove | .remove _, .inr (.removed _) => true
  | .close, .inl .lock | .close, .inl (.closing _ _) | .close, .inr (.closed _) => true
  | _, _ => false

theorem typed_exec (h : (prog cerr).mach.Exec m H) : ∀ i op x, m.view i = some (op, x) → typed op x = true := by
  refine (prog cerr).induct (fun _ v _ => ∀ i op x, v i = some (op, x) → typed op x = true) ?_ ?_ ?_ ?_ h
  · simp
  · intro g v _ i op hi hv j op' x hj
    by_cases hji : j = i
    · subst hji; simp only [upd_same, Option.some.injEq, Prod.mk.injEq] at hj; obtain ⟨rfl, rfl⟩ := hj
      cases op <;> rfl
    · rw [upd_ne _ _ hji] at hj; exact hi j op' x hj
  · intro g v _ i op s c g' x hi hv hs j op' x' hj
    by_cases hji : j = i
    · subst hji; simp only [upd_same, Option.some.injEq, Prod.mk.injEq] at hj; obtain ⟨rfl, rfl⟩ := hj
      simp only [prog] at hs
      cases op <;> simp only at hs <;> cases s <;> simp only [getStep, removeStep, closeStep] at hs <;> (repeat' split at hs) <;>
        simp only [Option.some.injEq, Prod.mk.injEq, reduceCtorEq] at hs <;> obtain ⟨rfl, rfl⟩ := hs <;> rfl
    · rw [upd_ne _ _ hji] at hj; exact hi j op' x' hj
  · intro g v _ i op r hi _; exact hi

/-- C32 (partial): as long as no `Get` has panicked there is no deadlock: whenever a call is pending, some call can go on. -/
theorem C32_no_deadlock_partial (h : (prog cerr).mach.Exec m H) {i : Nat} {op : Op K E} (hi : Ev.inv i op ∈ H) (hr : ∀ r, Ev.ret i r ∉ H)
    (hp : ∀ j, Ev.ret j (.get .panic) ∉ H) : ∃ j c, (prog cerr).mach.next m j c ≠ none := by
  have hI := inv_exec cerr h
  have hX := (ext_exec cerr h).2
  have hT := typed_exec h
  have move : ∀ j op s, m.view j = some (op, .inl s) → (∃ c, (prog cerr).step m.g j op s c ≠ none) → ∃ j c, (prog cerr).mach.next m j c ≠ none := by
    rintro j op s hj ⟨c, hc⟩
    refine ⟨j, c, ?_⟩
    simp only [Conf.view] at hj
    cases hpc : m.pc j <;> rw [hpc] at hj <;> simp only [Proc.view, Option.some.injEq, Prod.mk.injEq, Sum.inl.injEq, reduceCtorEq, and_false] at hj
    obtain ⟨rfl, rfl⟩ := hj
    simp only [Prog.mach, hpc]
    cases hs : (prog cerr).step m.g j _ _ c with
    | none => exact absurd hs hc
    | some y =>
      obtain ⟨g', x⟩ := y
      cases x <;> simp
  cases hw : m.g.wlock with
  | some j =>
    rcases hX.lockBy j hw with ⟨todo, be, hj⟩ | ⟨k, f, x, hj, hx⟩
    · refine move j _ _ hj ⟨0, ?_⟩
      cases todo with
      | nil => simp [prog, closeStep]
      | cons a l => simp [prog, closeStep]
    · cases x with
      | inl s =>
        refine move j _ _ hj ⟨0, ?_⟩
        cases s <;> simp only [carries, reduceCtorEq] at hx <;> simp [prog, getStep]
      | inr r =>
        cases r <;> simp only [carries, reduceCtorEq, Option.some.injEq] at hx
        subst hx
        have hij : Ev.inv j (.get k f) ∈ H := ((prog cerr).hist h).1 j _ |>.2 ⟨_, hj⟩
        by_cases hret : ∃ r, Ev.ret j r ∈ H
        · obtain ⟨r, hret⟩ := hret
          have := (prog cerr).ret_view h hij hret
          rw [hj] at this
          simp only [Option.some.injEq, Prod.mk.injEq, true_and, Sum.inr.injEq] at this
          subst this
          exact absurd hret (hp j)
        · rcases (prog cerr).pending h hij (fun r hx => hret ⟨r, hx⟩) with ⟨s, hs⟩ | ⟨r, hs⟩
          · simp [Conf.view, hs, Proc.view] at hj
          · exact ⟨j, 0, by simp [Prog.mach, hs]⟩
  | none =>
    -- a leader can always go on
    have lead : ∀ j k f s, m.view j = some (.get k f, .inl s) → s.lead = true → ∃ j c, (prog cerr).mach.next m j c ≠ none := by
      intro j k f s hj hs
      refine move j _ _ hj ⟨0, ?_⟩
      cases s <;> simp only [Pt.lead, Bool.false_eq_true] at hs
      · simp only [prog, getStep, hw]
        cases m.g.res.bind (find · k) <;> simp
      · cases f <;> simp [prog, getStep]
      · cases hres : m.g.res <;> simp [prog, getStep, hw, hres]
      · simp [prog, getStep]
      · simp [prog, getStep]
    rcases (prog cerr).pending h hi hr with ⟨s, hs⟩ | ⟨r, hs⟩
    · have hv : m.view i = some (op, .inl s) := by simp [Conf.view, hs, Proc.view]
      have ht := hT i op _ hv
      cases op with
      | get k f =>
        cases s <;> simp only [typed, Bool.false_eq_true] at ht
        · refine move i _ _ hv ⟨0, ?_⟩
          cases hfl : m.g.flight k <;> simp [prog, getStep, hfl]
        · rename_i l
          cases hf : m.g.fin l with
          | some o => exact move i _ _ hv ⟨0, by simp [prog, getStep, hf]⟩
          | none =>
            obtain ⟨f', s', h1, h2⟩ := (hI.leader k l).1 ((hI.wait i k f l hv).2 hf)
            exact lead l k f' s' h1 h2
        all_goals exact lead i k f _ hv rfl
      | remove k =>
        cases s <;> simp only [typed, Bool.false_eq_true] at ht
        refine move i _ _ hv ⟨0, ?_⟩
        cases hres : m.g.res with
        | none => simp [prog, removeStep, hw, hres]
        | some l => cases hfd : find l k <;> simp [prog, removeStep, hw, hres, hfd]
      | close =>
        cases s <;> simp only [typed, Bool.false_eq_true] at ht
        · exact move i _ _ hv ⟨0, by simp [prog, closeStep, hw]⟩
        · rename_i todo be
          refine move i _ _ hv ⟨0, ?_⟩
          cases todo with
          | nil => simp [prog, closeStep]
          | cons a l => simp [prog, closeStep]
    · exact ⟨i, 0, by simp [Prog.mach, hs]⟩

/-- A `Get` that waits for another one. -/
example : ∃ m, (prog (fun _ => (none : Option Unit)) : Prog (G Unit Unit) _ _ _).mach.Exec m [.inv 0 (.get () none), .inv 1 (.get () none)] ∧
    m.pc 1 = .at (.get () none) (.wait 0) :=
  Mach.exists_exec_state _ [.inv 0 (.get () none), .inv 1 (.get () none), .run 0, .run 1] _ _ (by exact And.intro rfl rfl)

end Verif.XSync.ResMan

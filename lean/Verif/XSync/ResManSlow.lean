import Verif.XSync.ResManMemEnds
/-!
# A slow `create` delays only the calls for its own key (C128)

`Get` calls `create` without holding the lock of the manager: while it runs, only the `Get`s of the same key wait for it.
-/
namespace Verif.XSync.ResManMem
open Verif.Conc Verif.XSync.ResMan

variable {K E : Type} [DecidableEq K] {cerr : Nat → Option E}

/-- The `create` function of call `i`, a `Get` of `k`, is running. -/
def Creating (m : Conf (Mem K E) (Op K E) (Res' E) (Pt K E)) (i : Nat) (k : K) : Prop := ∃ f, m.view i = some (.get k f, .inl .create)

/-- C128 (partial: no `Get` has panicked). A call that has not returned can go on, or another call can that is not waiting for its `create` function to
return, or the call is a `Get` whose key has a `create` running. -/
theorem C128_no_wait_partial {m : Conf (Mem K E) (Op K E) (Res' E) (Pt K E)} {H : List (Ev (Op K E) (Res' E))} (h : (prog cerr).mach.Exec m H)
    {i : Nat} {op : Op K E} (hi : Ev.inv i op ∈ H) (hr : ∀ r, Ev.ret i r ∉ H) (hp : ∀ j, Ev.ret j (.get .panic) ∉ H) :
    (∃ j c, (prog cerr).mach.next m j c ≠ none ∧ ∀ k, ¬ Creating m j k) ∨ ∃ k f j, op = .get k f ∧ Creating m j k := by
  obtain ⟨m', h', hg, hV, hL⟩ := rel_exec h
  obtain ⟨hF, hR⟩ := fits_exec h
  have hI := inv_exec cerr h'
  have hX := (ext_exec cerr h').2
  have move : ∀ j op s, m.view j = some (op, .inl s) → s ≠ .create → (waits s = true → m.g.writer = none ∧ m.g.readers = []) →
      (∀ l, s = .wait l → m.g.fin l ≠ none) → ∃ j c, (prog cerr).mach.next m j c ≠ none ∧ ∀ k, ¬ Creating m j k := by
    intro j op s hj hc hw hf
    have he := enabled (cerr := cerr) (i := j) (hF j op s hj) hw hf
    refine ⟨j, 0, ?_, fun k hk => ?_⟩
    rotate_left
    · obtain ⟨f, ho⟩ := hk
      rw [hj] at ho
      simp only [Option.some.injEq, Prod.mk.injEq, Sum.inl.injEq] at ho
      exact hc ho.2
    simp only [Conf.view] at hj
    cases hpc : m.pc j <;> rw [hpc] at hj <;> simp only [Proc.view, Option.some.injEq, Prod.mk.injEq, Sum.inl.injEq, reduceCtorEq, and_false] at hj
    obtain ⟨rfl, rfl⟩ := hj
    simp only [Prog.mach, hpc]
    cases hs : (prog cerr).step m.g j _ _ 0 with
    | none => exact absurd hs he
    | some y =>
      obtain ⟨g', x⟩ := y
      cases x <;> simp
  -- what the view of a call is here, given what it is there
  have back : ∀ j op y, m'.view j = some (op, y) → ∃ x, m.view j = some (op, x) ∧ absX m.g.field m.g.map j x = y := by
    intro j op y hj
    rw [hV] at hj
    simp only [absV] at hj
    cases hv : m.view j with
    | none => simp [hv] at hj
    | some z => obtain ⟨o, x⟩ := z; simp [hv] at hj; exact ⟨x, by rw [hj.1], hj.2⟩
  cases hw : m.g.writer with
  | some j =>
    by_cases hs : short (m.view j) = true
    · cases hv : m.view j with
      | none => simp [hv, short] at hs
      | some z =>
        obtain ⟨o, x⟩ := z
        cases x with
        | inr r => simp [hv, short] at hs
        | inl s => exact .inl <| move j o s hv (by rintro rfl; simp [hv, short] at hs) (fun h => by cases s <;> simp_all [short, waits]) (fun l h => by subst h; simp [hv, short] at hs)
    · have hwl : m'.g.wlock = some j := by rw [hg]; simp [absG, absW, hw, hs]
      rcases hX.lockBy j hwl with ⟨todo, be, hj⟩ | ⟨k, f, y, hj, hy⟩
      · obtain ⟨x, hx, hax⟩ := back _ _ _ hj
        cases x with
        | inr r => simp [absX] at hax
        | inl s =>
          refine .inl <| move j _ s hx (by rintro rfl; simp [absX] at hax) (fun h => ?_) (fun l h => by subst h; simp [absX] at hax)
          cases s <;> simp [waits] at h <;> simp [absX] at hax
      · obtain ⟨x, hx, hax⟩ := back _ _ _ hj
        cases x with
        | inl s =>
          refine .inl <| move j _ s hx (by rintro rfl; simp only [absX] at hax; subst hax; simp [carries] at hy) (fun h => ?_) (fun l h => by subst h; simp only [absX] at hax; subst hax; simp [carries] at hy)
          cases s <;> simp [waits] at h <;> simp only [absX] at hax <;> subst hax <;> simp [carries] at hy
        | inr r =>
          simp only [absX] at hax
          subst hax
          cases r <;> simp only [carries, reduceCtorEq, Option.some.injEq] at hy
          subst hy
          have hij : Ev.inv j (.get k f) ∈ H := ((prog cerr).hist h).1 j _ |>.2 ⟨_, hx⟩
          by_cases hret : ∃ r, Ev.ret j r ∈ H
          · obtain ⟨r, hret⟩ := hret
            have := (prog cerr).ret_view h hij hret
            rw [hx] at this
            simp only [Option.some.injEq, Prod.mk.injEq, true_and, Sum.inr.injEq] at this
            subst this
            exact absurd hret (hp j)
          · rcases (prog cerr).pending h hij (fun r hx => hret ⟨r, hx⟩) with ⟨s, hs⟩ | ⟨r, hs⟩
            · simp [Conf.view, hs, Proc.view] at hx
            · exact .inl ⟨j, 0, by simp [Prog.mach, hs], by rintro k ⟨f', hf'⟩; simp [Conf.view, hs, Proc.view] at hf'⟩
  | none =>
    cases hrd : m.g.readers with
    | cons j l =>
      obtain ⟨o, s, h1, h2⟩ := hR j (by simp [hrd])
      exact .inl <| move j o s h1 (by rintro rfl; simp [rd] at h2) (fun h => by cases s <;> simp_all [rd, waits]) (fun l h => by subst h; simp [rd] at h2)
    | nil =>
      rcases (prog cerr).pending h hi hr with ⟨s, hs⟩ | ⟨r, hs⟩
      · have hv : m.view i = some (op, .inl s) := by simp [Conf.view, hs, Proc.view]
        by_cases hwait : ∃ l, s = .wait l ∧ m.g.fin l = none
        · obtain ⟨l, rfl, hfin⟩ := hwait
          have ht := hF i op _ hv
          cases op <;> simp only [fits, Bool.false_eq_true] at ht
          rename_i k f
          have hv' : m'.view i = some (.get k f, .inl (.wait l)) := by rw [hV]; simp [absV, hv, absX]
          obtain ⟨f', s', h1, h2⟩ := (hI.leader k l).1 ((hI.wait i k f l hv').2 (by rw [hg]; exact hfin))
          obtain ⟨x, hx, hax⟩ := back _ _ _ h1
          cases x with
          | inr r => simp [absX] at hax
          | inl t =>
            by_cases htc : t = .create
            · subst htc; exact .inr ⟨k, f, l, rfl, _, hx⟩
            · exact .inl <| move l _ t hx htc (fun _ => ⟨hw, hrd⟩) (fun l' h => by subst h; simp only [absX, Sum.inl.injEq] at hax; subst hax; simp [ResMan.Pt.lead] at h2)
        · by_cases hc : s = .create
          · subst hc
            have ht := hF i op _ hv
            cases op <;> simp only [fits, Bool.false_eq_true] at ht
            rename_i k f
            exact .inr ⟨k, f, i, rfl, _, hv⟩
          · exact .inl <| move i op s hv hc (fun _ => ⟨hw, hrd⟩) fun l h h' => hwait ⟨l, h, h'⟩
      · exact .inl ⟨i, 0, by simp [Prog.mach, hs], by rintro k ⟨f', hf'⟩; simp [Conf.view, hs, Proc.view] at hf'⟩


/-- C128 (partial: no `Get` has panicked). However long some `create` functions take: when the other calls have gone as far as they can, all calls have
returned but the `Get`s of the keys for which a `create` is running. -/
theorem C128_slow_create_partial {m : Conf (Mem K E) (Op K E) (Res' E) (Pt K E)} {H : List (Ev (Op K E) (Res' E))} (h : (prog cerr).mach.Exec m H)
    (hs : ∀ j c, (∀ k, ¬ Creating m j k) → (prog cerr).mach.next m j c = none) (hp : ∀ j, Ev.ret j (.get .panic) ∉ H) {i : Nat} {op : Op K E}
    (hi : Ev.inv i op ∈ H) : (∃ r, Ev.ret i r ∈ H) ∨ ∃ k f j, op = .get k f ∧ Creating m j k := by
  by_cases hr : ∃ r, Ev.ret i r ∈ H
  · exact .inl hr
  · rcases C128_no_wait_partial h hi (fun r hr' => hr ⟨r, hr'⟩) hp with ⟨j, c, hn, hc⟩ | hw
    · exact absurd (hs j c hc) hn
    · exact .inr hw

/-- The `create` of key `true` is running, another `Get` waits for it; a `Remove` has returned. -/
theorem demoSlow : ∃ m, (prog (fun _ => (none : Option Unit)) : Prog (Mem Bool Unit) _ _ _).mach.Exec m
    [.inv 0 (.get true none), .inv 1 (.get true none), .inv 2 (.remove false), .ret 2 (.removed false)] ∧
    Creating m 0 true ∧ m.view 1 = some (.get true none, .inl (.wait 0)) ∧
    ∀ j c, (∀ k, ¬ Creating m j k) → (prog (fun _ => (none : Option Unit)) : Prog (Mem Bool Unit) _ _ _).mach.next m j c = none :=
  Mach.exists_exec_state _ ([.inv 0 (.get true none)] ++ List.replicate 5 (.run 0 0) ++ [.inv 1 (.get true none), .run 1 0, .inv 2 (.remove false)] ++
    List.replicate 5 (.run 2 0)) _ _ (by
      refine ⟨rfl, ⟨none, rfl⟩, rfl, ?_⟩
      intro j c
      match j with
      | 0 => exact fun hj => (hj true ⟨none, rfl⟩).elim
      | 1 => exact fun _ => rfl
      | 2 => exact fun _ => rfl
      | _ + 3 => exact fun _ => rfl)

/-- While the `create` of key `true` is running, a `Get` of `false` and a `Remove` return. -/
theorem demoOthers : ∃ m, (prog (fun _ => (none : Option Unit)) : Prog (Mem Bool Unit) _ _ _).mach.Exec m
    [.inv 0 (.get true none), .inv 1 (.get false none), .ret 1 (.get (.got 1)), .inv 2 (.remove false), .ret 2 (.removed true)] ∧ Creating m 0 true :=
  Mach.exists_exec_state _ ([.inv 0 (.get true none)] ++ List.replicate 5 (.run 0 0) ++ [.inv 1 (.get false none)] ++
    List.replicate 13 (.run 1 0) ++ [.inv 2 (.remove false)] ++ List.replicate 7 (.run 2 0)) _ _ (by exact ⟨rfl, none, rfl⟩)

example := demoSlow.imp fun _ h => C128_no_wait_partial h.1 (i := 1) (op := .get true none) (by simp) (by simp) (by simp)
example := demoSlow.imp fun _ h => C128_slow_create_partial h.1 h.2.2.2 (by simp) (i := 2) (op := .remove false) (by simp)

/-- It is false that a slow `Close` method of a resource delays nobody: the manager holds its lock while it calls it. Here nobody but the call of `Close`
can go on, neither a `Get` nor a `Remove` of another key. -/
theorem C128_slow_close_refuted : ∃ m, (prog (fun _ => (none : Option Unit)) : Prog (Mem Bool Unit) _ _ _).mach.Exec m
    [.inv 0 (.get true none), .ret 0 (.get (.got 0)), .inv 1 .close, .inv 2 (.get false none), .inv 3 (.remove false)] ∧
    m.view 1 = some (.close, .inl (.clCall (true, 0) [] .zero)) ∧
    ∀ j c, j ≠ 1 → (prog (fun _ => (none : Option Unit)) : Prog (Mem Bool Unit) _ _ _).mach.next m j c = none :=
  Mach.exists_exec_state _ ([.inv 0 (.get true none)] ++ List.replicate 13 (.run 0 0) ++ [.inv 1 .close] ++ List.replicate 3 (.run 1 0) ++
    [.inv 2 (.get false none), .run 2 0, .inv 3 (.remove false)]) _ _ (by
      refine ⟨rfl, rfl, ?_⟩
      intro j c hj
      match j, hj with
      | 0, _ => rfl
      | 1, hj => exact absurd rfl hj
      | 2, _ => rfl
      | 3, _ => rfl
      | _ + 4, _ => rfl)

end Verif.XSync.ResManMem

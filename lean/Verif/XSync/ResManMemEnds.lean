import Verif.XSync.ResManMemProps
import Verif.XSync.ResManEnds
/-!
# Calls of a `ResourceManager` return under every schedule, access by access (C113)
-/
namespace Verif.XSync.ResManMem
open Verif.Conc Verif.XSync.ResMan

variable {K E : Type} [DecidableEq K] {cerr : Nat → Option E}

/-- 1 if the call may still change the map. -/
def changes : Pt K E → Nat
  | .start | .rlock | .getField | .getMap | .runlock _ | .create | .storeLock | .storeField | .storeMap
  | .rmLock | .rmField | .rmGet | .rmField2 | .rmDel => 1
  | _ => 0

/-- The steps a call has left, if nobody changes the map. -/
def steps (map : List (K × Nat)) : Pt K E → Nat
  | .start => 20
  | .wait _ => 0
  | .rlock => 19
  | .getField => 18
  | .getMap => 17
  | .runlock _ => 16
  | .create => 15
  | .storeLock => 14
  | .storeField => 13
  | .storeMap => 12
  | .storeUnlock => 11
  | .finish _ => 10
  | .drop _ => 9
  | .rmLock => 8
  | .rmField => 7
  | .rmGet => 6
  | .rmField2 => 5
  | .rmDel => 4
  | .rmUnlock _ => 3
  | .clLock => 2 * map.length + 6
  | .clField => 2 * map.length + 5
  | .clNext seen _ => 2 * (rest map seen).length + 3
  | .clCall x seen _ => 2 * (rest map (seen ++ [x.1])).length + 4
  | .clSet _ => 2
  | .clUnlock _ => 1

/-- Proof only: part of a measure; models no code. -/
def weights : Weights (Mem K E) (Op K E) (Pt K E) where
  A _ _ := 0
  R _ s := changes s
  T M _ s := steps M.map s

theorem rest_lt {l : List (K × Nat)} {seen : List K} {x : K × Nat} (h : x ∈ rest l seen) : (rest l (seen ++ [x.1])).length < (rest l seen).length := by
  have hsub : rest l (seen ++ [x.1]) = (rest l seen).filter fun y => decide (y.1 ≠ x.1) := by
    unfold rest
    rw [List.filter_filter]
    congr 1
    funext y
    simp [and_comm]
  rw [hsub]
  exact List.length_filter_lt_length_iff_exists.mpr ⟨x, h, by simp⟩

/-- A step makes the call lighter, and leaves the map alone unless it was the last change of the call. -/
theorem lighter {M M' : Mem K E} {i c : Nat} {op : Op K E} {s s' : Pt K E} (h : (prog cerr).step M i op s c = some (M', .inl s')) :
    changes s' < changes s ∨ changes s' ≤ changes s ∧ steps M.map s' < steps M.map s ∧ M'.map = M.map := by
  cases op with
  | get k f =>
    cases s <;> simp only [prog, getStep] at h <;> (repeat' split at h) <;>
      simp only [Option.some.injEq, Prod.mk.injEq, Sum.inl.injEq, reduceCtorEq, and_false] at h <;> obtain ⟨rfl, rfl⟩ := h <;> (repeat' split) <;>
      simp [changes, steps]
  | remove k =>
    cases s <;> simp only [prog, removeStep] at h <;> (repeat' split at h) <;>
      simp only [Option.some.injEq, Prod.mk.injEq, Sum.inl.injEq, reduceCtorEq, and_false] at h <;> obtain ⟨rfl, rfl⟩ := h <;> (repeat' split) <;>
      simp [changes, steps]
  | close =>
    cases s <;> simp only [prog, closeStep, reduceCtorEq] at h
    case clNext seen be =>
      split at h
      · simp only [Option.some.injEq, Prod.mk.injEq, Sum.inl.injEq] at h
        obtain ⟨rfl, rfl⟩ := h
        simp [changes, steps]
      · split at h
        · simp at h
        rename_i x hx
        simp only [Option.some.injEq, Prod.mk.injEq, Sum.inl.injEq] at h
        obtain ⟨rfl, rfl⟩ := h
        have := rest_lt (List.mem_of_getElem? hx)
        refine .inr ⟨Nat.le_refl _, ?_, rfl⟩
        simp only [steps]
        omega
    all_goals
      (repeat' split at h) <;>
        simp only [Option.some.injEq, Prod.mk.injEq, Sum.inl.injEq, reduceCtorEq, and_false] at h <;> obtain ⟨rfl, rfl⟩ := h <;> (repeat' split) <;>
        simp [changes, steps, rest]

theorem sinks : (weights (K := K) (E := E)).Sinks (prog cerr) := by
  constructor
  · intro M i op s c M' s' h
    refine .inr ⟨Nat.le_refl _, ?_⟩
    rcases lighter h with h | ⟨h1, h2, h3⟩
    · exact .inl h
    · refine .inr ⟨h1, ?_, fun _ t => ?_⟩ <;> simp only [weights, h3]
      · exact h2
      · exact Nat.le_refl _
  · intro M i op s c M' r h
    refine .inr ?_
    cases op with
    | get k f =>
      cases s <;> simp only [prog, getStep] at h <;> (repeat' split at h) <;>
        simp only [Option.some.injEq, Prod.mk.injEq, reduceCtorEq, and_false] at h <;> obtain ⟨rfl, _⟩ := h <;> exact .inr fun _ _ => Nat.le_refl _
    | remove k =>
      cases s <;> simp only [prog, removeStep] at h <;> (repeat' split at h) <;>
        simp only [Option.some.injEq, Prod.mk.injEq, reduceCtorEq, and_false] at h <;> obtain ⟨rfl, _⟩ := h <;> exact .inr fun _ _ => Nat.le_refl _
    | close =>
      cases s <;> simp only [prog, closeStep] at h <;> (repeat' split at h) <;>
        simp only [Option.some.injEq, Prod.mk.injEq, reduceCtorEq, and_false] at h <;> obtain ⟨rfl, _⟩ := h <;> exact .inr fun _ _ => Nat.le_refl _

/-- **C113.** Without new calls every execution of concurrent calls on one manager ends, whatever the schedule of the accesses. -/
theorem C113_resman_ends {m : Conf (Mem K E) (Op K E) (Res' E) (Pt K E)} {H : List (Ev (Op K E) (Res' E))} (h : (prog cerr).mach.Exec m H) :
    Acc (prog cerr).Moves m := sinks.ends h

example := demoWrite.imp fun _ h => C113_resman_ends h.1

/-! ## No deadlock -/

/-- The points at which the operations can be. -/
def fits : Op K E → Pt K E → Bool
  | .get _ _, .start | .get _ _, .wait _ | .get _ _, .rlock | .get _ _, .getField | .get _ _, .getMap | .get _ _, .runlock _ | .get _ _, .create
  | .get _ _, .storeLock | .get _ _, .storeField | .get _ _, .storeMap | .get _ _, .storeUnlock | .get _ _, .finish _ | .get _ _, .drop _ => true
  | .remove _, .rmLock | .remove _, .rmField | .remove _, .rmGet | .remove _, .rmField2 | .remove _, .rmDel | .remove _, .rmUnlock _ => true
  | .close, .clLock | .close, .clField | .close, .clNext _ _ | .close, .clCall _ _ _ | .close, .clSet _ | .close, .clUnlock _ => true
  | _, _ => false

/-- Points at which a call waits for the lock. -/
def waits : Pt K E → Bool
  | .rlock | .storeLock | .rmLock | .clLock => true
  | _ => false

theorem enabled {M : Mem K E} {i : Nat} {op : Op K E} {s : Pt K E} (ht : fits op s = true)
    (hw : waits s = true → M.writer = none ∧ M.readers = []) (hf : ∀ l, s = .wait l → M.fin l ≠ none) : (prog cerr).step M i op s 0 ≠ none := by
  cases op with
  | get k f =>
    cases s <;> simp only [fits, Bool.false_eq_true] at ht <;> simp only [prog, getStep]
    case start => cases M.flight k <;> simp
    case wait l =>
      cases h : M.fin l with
      | none => exact absurd h (hf l rfl)
      | some o => simp
    case create => cases f <;> simp
    all_goals simp_all [waits]
  | remove k =>
    cases s <;> simp only [fits, Bool.false_eq_true] at ht <;> simp only [prog, removeStep]
    case rmDel => cases find M.map k <;> simp
    all_goals simp_all [waits]
  | close =>
    cases s <;> simp only [fits, Bool.false_eq_true] at ht <;> simp only [prog, closeStep]
    case clNext seen be =>
      split
      · simp
      · rename_i hne
        split
        · rename_i h
          have hl : 0 < (rest M.map seen).length := by
            rcases hr : rest M.map seen with _ | ⟨a, l⟩
            · exact absurd hr hne
            · simp
          simp only [Nat.zero_mod, List.getElem?_eq_none_iff] at h
          omega
        · simp
    all_goals simp_all [waits]

theorem fits_exec {m : Conf (Mem K E) (Op K E) (Res' E) (Pt K E)} {H : List (Ev (Op K E) (Res' E))} (h : (prog cerr).mach.Exec m H) :
    (∀ i op s, m.view i = some (op, .inl s) → fits op s = true) ∧ ∀ i ∈ m.g.readers, ∃ op s, m.view i = some (op, .inl s) ∧ rd (.inl s : Pt K E ⊕ Res' E) = true := by
  refine (prog cerr).induct (fun M v _ => (∀ i op s, v i = some (op, .inl s) → fits op s = true) ∧
    ∀ i ∈ M.readers, ∃ op s, v i = some (op, .inl s) ∧ rd (.inl s : Pt K E ⊕ Res' E) = true) ?_ ?_ ?_ ?_ h
  · simp [prog, new]
  · rintro M v _ i op ⟨h1, h2⟩ hv
    refine ⟨fun j op' s hj => ?_, fun j hj => ?_⟩
    · by_cases hji : j = i
      · subst hji; simp only [upd_same, Option.some.injEq, Prod.mk.injEq, Sum.inl.injEq] at hj; obtain ⟨rfl, rfl⟩ := hj
        cases op <;> rfl
      · rw [upd_ne _ _ hji] at hj; exact h1 j op' s hj
    · obtain ⟨o, s, h3, h4⟩ := h2 j hj
      have : j ≠ i := by rintro rfl; simp [hv] at h3
      exact ⟨o, s, by rw [upd_ne _ _ this]; exact h3, h4⟩
  · rintro M v _ i op s c M' x ⟨h1, h2⟩ hv hs
    have key : (∀ s', x = .inl s' → fits op s' = true) ∧ ((rd x = true ∧ ∀ j ∈ M'.readers, j = i ∨ j ∈ M.readers) ∨
        (rd x = false ∧ rd (.inl s : Pt K E ⊕ Res' E) = false ∧ M'.readers = M.readers) ∨ (rd x = false ∧ M'.readers = M.readers.filter (· != i))) := by
      simp only [prog] at hs
      cases op <;> simp only at hs <;> cases s <;> simp only [getStep, removeStep, closeStep] at hs <;> (repeat' split at hs) <;>
        simp only [Option.some.injEq, Prod.mk.injEq, reduceCtorEq] at hs <;> obtain ⟨rfl, rfl⟩ := hs <;> (repeat' split) <;>
        simp_all [fits, rd]
    refine ⟨fun j op' s' hj => ?_, fun j hj => ?_⟩
    · by_cases hji : j = i
      · subst hji; simp only [upd_same, Option.some.injEq, Prod.mk.injEq] at hj; obtain ⟨rfl, rfl⟩ := hj
        exact key.1 _ rfl
      · rw [upd_ne _ _ hji] at hj; exact h1 j op' s' hj
    · have other : j ≠ i → j ∈ M.readers → ∃ op' s', upd v i (some (op, x)) j = some (op', .inl s') ∧ rd (.inl s' : Pt K E ⊕ Res' E) = true := by
        intro hji hj
        obtain ⟨o, s', h3, h4⟩ := h2 j hj
        exact ⟨o, s', by rw [upd_ne _ _ hji]; exact h3, h4⟩
      rcases key.2 with ⟨k1, k2⟩ | ⟨k1, k2, k3⟩ | ⟨k1, k2⟩
      · by_cases hji : j = i
        · subst hji
          cases x with
          | inl s' => exact ⟨op, s', by simp, k1⟩
          | inr r => simp [rd] at k1
        · exact other hji ((k2 j hj).resolve_left hji)
      · rw [k3] at hj
        refine other ?_ hj
        rintro rfl
        obtain ⟨o, s', h3, h4⟩ := h2 j hj
        rw [hv] at h3; simp only [Option.some.injEq, Prod.mk.injEq, Sum.inl.injEq] at h3; obtain ⟨_, rfl⟩ := h3
        simp [k2] at h4
      · rw [k2] at hj
        simp only [List.mem_filter, bne_iff_ne, ne_eq] at hj
        exact other hj.2 hj.1
  · intro M v _ i op r hi _; exact hi

/-- C113 (partial: no `Get` has panicked). There is no deadlock: whenever a call is pending, some call can go on. -/
theorem C113_resman_no_deadlock_partial {m : Conf (Mem K E) (Op K E) (Res' E) (Pt K E)} {H : List (Ev (Op K E) (Res' E))} (h : (prog cerr).mach.Exec m H)
    {i : Nat} {op : Op K E} (hi : Ev.inv i op ∈ H) (hr : ∀ r, Ev.ret i r ∉ H) (hp : ∀ j, Ev.ret j (.get .panic) ∉ H) :
    ∃ j c, (prog cerr).mach.next m j c ≠ none := by
  obtain ⟨m', h', hg, hV, hL⟩ := rel_exec h
  obtain ⟨hF, hR⟩ := fits_exec h
  have hI := inv_exec cerr h'
  have hX := (ext_exec cerr h').2
  have move : ∀ j op s, m.view j = some (op, .inl s) → (waits s = true → m.g.writer = none ∧ m.g.readers = []) → (∀ l, s = .wait l → m.g.fin l ≠ none) →
      ∃ j c, (prog cerr).mach.next m j c ≠ none := by
    intro j op s hj hw hf
    have he := enabled (cerr := cerr) (i := j) (hF j op s hj) hw hf
    refine ⟨j, 0, ?_⟩
    simp only [Conf.view] at hj
    cases hpc : m.pc j <;> rw [hpc] at hj <;> simp only [Proc.view, Option.some.injEq, Prod.mk.injEq, Sum.inl.injEq, reduceCtorEq, and_false] at hj
    obtain ⟨rfl, rfl⟩ := hj
    simp only [Prog.mach, hpc]
    cases hs : (prog cerr).step m.g j _ _ 0 with
    | none => exact absurd hs he
    | some y =>
      obtain ⟨g', x⟩ := y
      cases x <;> simp
  -- what the view of a call is here, given what it is there
  have back : ∀ j op y, m'.view j = some (op, y) → ∃ x, m.view j = some (op, x) ∧ absX m.g.field m.g.map j x = y := by
    intro j op y hj
    rw [hV] at hj
    simp only [absV] at hj
    cases hv : m.view j with
    | none => simp [hv] at hj
    | some z => obtain ⟨o, x⟩ := z; simp [hv] at hj; exact ⟨x, by rw [hj.1], hj.2⟩
  cases hw : m.g.writer with
  | some j =>
    by_cases hs : short (m.view j) = true
    · cases hv : m.view j with
      | none => simp [hv, short] at hs
      | some z =>
        obtain ⟨o, x⟩ := z
        cases x with
        | inr r => simp [hv, short] at hs
        | inl s => exact move j o s hv (fun h => by cases s <;> simp_all [short, waits]) (fun l h => by subst h; simp [hv, short] at hs)
    · have hwl : m'.g.wlock = some j := by rw [hg]; simp [absG, absW, hw, hs]
      rcases hX.lockBy j hwl with ⟨todo, be, hj⟩ | ⟨k, f, y, hj, hy⟩
      · obtain ⟨x, hx, hax⟩ := back _ _ _ hj
        cases x with
        | inr r => simp [absX] at hax
        | inl s =>
          refine move j _ s hx (fun h => ?_) (fun l h => by subst h; simp [absX] at hax)
          cases s <;> simp [waits] at h <;> simp [absX] at hax
      · obtain ⟨x, hx, hax⟩ := back _ _ _ hj
        cases x with
        | inl s =>
          refine move j _ s hx (fun h => ?_) (fun l h => by subst h; simp only [absX] at hax; subst hax; simp [carries] at hy)
          cases s <;> simp [waits] at h <;> simp only [absX] at hax <;> subst hax <;> simp [carries] at hy
        | inr r =>
          simp only [absX] at hax
          subst hax
          cases r <;> simp only [carries, reduceCtorEq, Option.some.injEq] at hy
          subst hy
          have hij : Ev.inv j (.get k f) ∈ H := ((prog cerr).hist h).1 j _ |>.2 ⟨_, hx⟩
          by_cases hret : ∃ r, Ev.ret j r ∈ H
          · obtain ⟨r, hret⟩ := hret
            have := (prog cerr).ret_view h hij hret
            rw [hx] at this
            simp only [Option.some.injEq, Prod.mk.injEq, true_and, Sum.inr.injEq] at this
            subst this
            exact absurd hret (hp j)
          · rcases (prog cerr).pending h hij (fun r hx => hret ⟨r, hx⟩) with ⟨s, hs⟩ | ⟨r, hs⟩
            · simp [Conf.view, hs, Proc.view] at hx
            · exact ⟨j, 0, by simp [Prog.mach, hs]⟩
  | none =>
    cases hrd : m.g.readers with
    | cons j l =>
      obtain ⟨o, s, h1, h2⟩ := hR j (by simp [hrd])
      exact move j o s h1 (fun h => by cases s <;> simp_all [rd, waits]) (fun l h => by subst h; simp [rd] at h2)
    | nil =>
      rcases (prog cerr).pending h hi hr with ⟨s, hs⟩ | ⟨r, hs⟩
      · have hv : m.view i = some (op, .inl s) := by simp [Conf.view, hs, Proc.view]
        by_cases hwait : ∃ l, s = .wait l ∧ m.g.fin l = none
        · obtain ⟨l, rfl, hfin⟩ := hwait
          have ht := hF i op _ hv
          cases op <;> simp only [fits, Bool.false_eq_true] at ht
          rename_i k f
          have hv' : m'.view i = some (.get k f, .inl (.wait l)) := by rw [hV]; simp [absV, hv, absX]
          obtain ⟨f', s', h1, h2⟩ := (hI.leader k l).1 ((hI.wait i k f l hv').2 (by rw [hg]; exact hfin))
          obtain ⟨x, hx, hax⟩ := back _ _ _ h1
          cases x with
          | inr r => simp [absX] at hax
          | inl t => exact move l _ t hx (fun _ => ⟨hw, hrd⟩) (fun l' h => by subst h; simp only [absX, Sum.inl.injEq] at hax; subst hax; simp [ResMan.Pt.lead] at h2)
        · exact move i op s hv (fun _ => ⟨hw, hrd⟩) fun l h h' => hwait ⟨l, h, h'⟩
      · exact ⟨i, 0, by simp [Prog.mach, hs]⟩

/-- C113 (partial: no `Get` has panicked). Where nothing can move any more, every call has returned. -/
theorem C113_resman_returns_partial {m : Conf (Mem K E) (Op K E) (Res' E) (Pt K E)} {H : List (Ev (Op K E) (Res' E))} (h : (prog cerr).mach.Exec m H)
    (hs : ∀ j c, (prog cerr).mach.next m j c = none) (hp : ∀ j, Ev.ret j (.get .panic) ∉ H) {i : Nat} {op : Op K E} (hi : Ev.inv i op ∈ H) :
    ∃ r, Ev.ret i r ∈ H := by
  refine Classical.byContradiction fun hr => ?_
  obtain ⟨j, c, hn⟩ := C113_resman_no_deadlock_partial h hi (fun r hr' => hr ⟨r, hr'⟩) hp
  exact hn (hs j c)

example := demoRead.imp fun _ h => C113_resman_no_deadlock_partial h.1 (i := 1) (op := .get false none) (by simp) (by simp) (by simp)
example := demoClose.elim fun _ h => C113_resman_returns_partial h.1 ((prog _).stuck_of_returned h.1 (returned_spec rfl)) (by simp) (i := 1) (op := .close) (by simp)

end Verif.XSync.ResManMem

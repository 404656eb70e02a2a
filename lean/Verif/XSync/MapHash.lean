import Verif.Conc.Must
import Verif.XSync.MapCrash
/-!
# C131: keys of `xsync.Map` that cannot be hashed

The keys are of type `interface{}`: a slice, a map, a function, or a struct that contains one, is accepted by the compiler, and indexing a map with it
panics ("runtime error: hash of unhashable type"), also if the map is nil or empty. The calls are those of `MapConc`; those with a key that cannot
be hashed panic where they index `read.m` or `m.dirty` with the key: map.go:102, 136, 200, 271, 336, 391 before the lock, map.go:109, 111, 142,
146, 149, 209, 211, 214, 279, 281, 284, 344, 346, 349, 395, 397, 398 and 158, 224, 295 under the lock. Nothing in these calls is deferred and
nothing in `map.go` recovers.

`(progU ok).mach.Exec m H` are the executions; `ok k` says that `k` can be hashed. `ret i none` in a history says that the call `i` ended with a
panic; `survived H` is the history without these events.
-/
namespace Verif.XSync.MapConc
open Verif.Conc Verif.Go

variable {K V : Type} [DecidableEq K] [DecidableEq V]

/-- The operation has a key, and it cannot be hashed. -/
def Op.unhashable (ok : K → Bool) (op : Op K V) : Bool := match op.key? with
  | some k => !ok k
  | none => false

/-- The points at which a map is indexed with the key of the call: the step after `m.read.Load()`, without (`start`) and with (`locked`) the lock,
`m.dirty[key] = e` after `unexpungeLocked` and `m.dirty[key] = newEntry(value)`. -/
def Pt.hashes : Pt K V → Bool
  | .start | .locked | .unexp _ | .add _ => true
  | _ => false

/-- Where a call panics: at an access to a Go map with a key that cannot be hashed. -/
def hashPanics (ok : K → Bool) (op : Op K V) (s : Pt K V) : Bool := op.unhashable ok && s.hashes

/-- `xsync.Map` used with keys of which some cannot be hashed -/
def progU (ok : K → Bool) : Prog (G K V) (Op K V) (Option (Res K V)) (Pt K V) := prog.must (hashPanics ok)

/-- The points at which a call with such a key can be when it panics. -/
def atOnce (ok : K → Bool) (op : Op K V) (s : Pt K V) : Bool := op.unhashable ok && match s with
  | .start => true
  | _ => false

theorem into {ok : K → Bool} {m : ConfP K V} {H : List (Ev (Op K V) (Option (Res K V)))} (h : (progU ok).mach.Exec m H) :
    (prog.crash (atOnce ok)).mach.Exec m H ∧ ∀ i op s, m.view i = some (op, .inl s) → op.unhashable ok = true → s = .start := by
  refine Prog.exec_into (progU ok) (prog.crash (atOnce ok)) (fun op s => op.unhashable ok = true → s = .start) rfl rfl (fun _ _ => rfl) ?_ ?_ h
  · intro g i op s c g' s' hJ hs hu
    rcases must_cases hs with ⟨_, _, hx⟩ | ⟨hB, _⟩
    · simp at hx
    · simp [hashPanics, hu, hJ hu, Pt.hashes] at hB
  · intro g i op s c y hJ hs
    cases hu : op.unhashable ok with
    | true =>
      obtain rfl := hJ hu
      refine ⟨0, ?_⟩
      simp only [progU, Prog.must, hashPanics, hu, Pt.hashes, Bool.and_self, if_true] at hs
      simp only [Prog.crash, atOnce, hu, Bool.and_self, if_true]
      exact hs
    | false =>
      refine ⟨c, ?_⟩
      simp only [progU, Prog.must, hashPanics, hu, Bool.false_and, Bool.false_eq_true, if_false] at hs
      simp only [Prog.crash, atOnce, hu, Bool.false_and, Bool.false_eq_true, if_false]
      exact hs

theorem progU_results {ok : K → Bool} {m : ConfP K V} {H : List (Ev (Op K V) (Option (Res K V)))} (h : (progU ok).mach.Exec m H) :
    ∀ i op r, m.view i = some (op, .inr r) → (r = none ↔ op.unhashable ok = true) := by
  have key : (∀ i op s, m.view i = some (op, .inl s) → op.unhashable ok = true → s = .start) ∧
      ∀ i op r, m.view i = some (op, .inr r) → (r = none ↔ op.unhashable ok = true) := by
    refine (progU ok).induct (fun _ v _ => (∀ i op s, v i = some (op, .inl s) → op.unhashable ok = true → s = .start) ∧
      ∀ i op r, v i = some (op, .inr r) → (r = none ↔ op.unhashable ok = true)) (by simp) ?_ ?_ ?_ h
    · intro g v H i op hI _
      refine ⟨fun j op' s hj hu => ?_, fun j op' r hj => ?_⟩
      · by_cases e : j = i
        · subst e
          simp only [upd_same, Option.some.injEq, Prod.mk.injEq, Sum.inl.injEq] at hj
          exact hj.2.symm
        · rw [upd_ne _ _ e] at hj; exact hI.1 j op' s hj hu
      · by_cases e : j = i
        · subst e; simp at hj
        · rw [upd_ne _ _ e] at hj; exact hI.2 j op' r hj
    · intro g v H i op s c g' x hI hv hst
      have hc := must_cases hst
      refine ⟨fun j op' s' hj hu => ?_, fun j op' r hj => ?_⟩
      · by_cases e : j = i
        · subst e
          simp only [upd_same, Option.some.injEq, Prod.mk.injEq] at hj
          obtain ⟨rfl, rfl⟩ := hj
          have hs0 := hI.1 _ _ _ hv hu
          subst hs0
          rcases hc with ⟨_, _, hx⟩ | ⟨hB, _⟩
          · simp at hx
          · simp [hashPanics, hu, Pt.hashes] at hB
        · rw [upd_ne _ _ e] at hj; exact hI.1 j op' s' hj hu
      · by_cases e : j = i
        · subst e
          simp only [upd_same, Option.some.injEq, Prod.mk.injEq] at hj
          obtain ⟨rfl, rfl⟩ := hj
          rcases hc with ⟨hB, _, hx⟩ | ⟨hB, y, _, ⟨s', _, hx⟩ | ⟨r', _, hx⟩⟩
          · simp only [Sum.inr.injEq] at hx
            simp only [hashPanics, Bool.and_eq_true] at hB
            simp [hx, hB.1]
          · simp at hx
          · simp only [Sum.inr.injEq] at hx
            subst hx
            cases hu : op.unhashable ok with
            | false => simp
            | true =>
              have hs0 := hI.1 _ _ _ hv hu
              subst hs0
              simp [hashPanics, hu, Pt.hashes] at hB
        · rw [upd_ne _ _ e] at hj; exact hI.2 j op' r hj
    · intro g v H i op r hI _; exact hI
  exact key.2

variable {ok : K → Bool} {m : ConfP K V} {H : List (Ev (Op K V) (Option (Res K V)))}

/-- **C131.** A call ends with a panic if its key cannot be hashed, and only then. -/
theorem C131_panics (h : (progU ok).mach.Exec m H) {i : Nat} {op : Op K V} {r : Option (Res K V)} (hi : Ev.inv i op ∈ H) (hr : Ev.ret i r ∈ H) :
    r = none ↔ ∃ k, op.key? = some k ∧ ok k = false := by
  obtain ⟨op', hv⟩ := ((progU ok).hist h).2 i r hr
  obtain ⟨x, hx⟩ := (((progU ok).hist h).1 i op).mp hi
  rw [hv] at hx
  simp only [Option.some.injEq, Prod.mk.injEq] at hx
  obtain ⟨rfl, _⟩ := hx
  rw [progU_results h i _ r hv]
  simp only [Op.unhashable]
  cases op'.key? <;> simp

/-- **C131.** For the other calls a call that panicked is a call that has not returned: their history is one of the map used with keys that can be
hashed, and has the guarantees of C21, C22 and C23. -/
theorem C131_history (h : (progU ok).mach.Exec m H) : ∃ m₀, prog.mach.Exec m₀ (survived H) :=
  (crash_sim (into h).1).imp fun _ h => h.1

/-- **C131.** A call with a key that cannot be hashed has no effect: there is an order of the effects that explains the history of the other calls in
which no such call occurs, whether it has panicked already or not. -/
theorem C131_effects (h : (progU ok).mach.Exec m H) :
    ∃ L st, Linearization mapSpec (survived H) L st ∧ ∀ x ∈ L, ∀ k, x.2.1.key? = some k → ok k = true := by
  obtain ⟨m₀, h₀, hg, ha⟩ := crash_sim (into h).1
  obtain ⟨gh, hr, hh, hI⟩ := simulation h₀
  obtain ⟨L, st, hL, hno, _⟩ := hr.linearization_effects
  rw [hh] at hL
  refine ⟨L, st, hL, fun x hx k hk => Classical.byContradiction fun hb => ?_⟩
  have hu : x.2.1.unhashable ok = true := by simp [Op.unhashable, hk, hb]
  have hinv := mem_survived_inv.mp (hL.invoked x hx)
  obtain ⟨y, hy⟩ := (((progU ok).hist h).1 _ _).mp hinv
  have hax := ha x.1
  rw [hy] at hax
  have hw : m₀.view x.1 = some (x.2.1, .inl .start) := by
    cases y with
    | inl s => obtain rfl := (into h).2 _ _ _ hy hu; exact hax
    | inr r =>
      obtain rfl := (progU_results h _ _ _ hy).mpr hu
      obtain ⟨s, hB, hw⟩ := hax
      rw [hw]
      simp only [atOnce, Bool.and_eq_true] at hB
      cases s <;> simp at hB
      rfl
  exact hno x hx _ (hI.floc _ _ _ hw)

/-- **C131.** The lock is never held by a call that has ended: not by one that panicked either. -/
theorem C131_lock (h : (progU ok).mach.Exec m H) {l : Nat} (hl : m.g.mu = some l) : (∃ op, Ev.inv l op ∈ H) ∧ ∀ r, Ev.ret l r ∉ H := by
  obtain ⟨m₀, h₀, hg, ha⟩ := crash_sim (into h).1
  obtain ⟨gh, _, _, hI⟩ := simulation h₀
  rw [hg] at hI
  obtain ⟨o, s', h1, h2⟩ := hI.muIn l hl
  have hal := ha l
  rw [h1] at hal
  have hv : m.view l = some (o, .inl s') := by
    rcases hm : m.view l with _ | ⟨op, s | r⟩
    · rw [hm] at hal; simp [Alike] at hal
    · rw [hm] at hal
      simp only [Alike, Option.some.injEq, Prod.mk.injEq, Sum.inl.injEq] at hal
      rw [hal.1, hal.2]
    · rw [hm] at hal
      cases r with
      | some r => simp [Alike] at hal
      | none =>
        simp only [Alike, Option.some.injEq, Prod.mk.injEq, Sum.inl.injEq] at hal
        obtain ⟨s, hB, _, rfl⟩ := hal
        cases s' <;> simp [atOnce, Pt.holds] at hB h2
  refine ⟨⟨o, (((progU ok).hist h).1 l o).mpr ⟨_, hv⟩⟩, fun r hr => ?_⟩
  obtain ⟨o', hv'⟩ := ((progU ok).hist h).2 l r hr
  rw [hv] at hv'
  simp at hv'

/-- **C131.** Without new calls every execution ends. -/
theorem C131_ends (h : (progU ok).mach.Exec m H) : Acc (progU ok).Moves m := (sinks.must (hashPanics ok)).ends h

/-- **C131.** Where nothing moves every call has returned or panicked. -/
theorem C131_returns (h : (progU ok).mach.Exec m H) (hs : ∀ j c, (progU ok).mach.next m j c = none) {i : Nat} {op : Op K V} (hi : Ev.inv i op ∈ H) :
    ∃ r, Ev.ret i r ∈ H := by
  refine Classical.byContradiction fun hr => ?_
  have hr : ∀ r, Ev.ret i r ∉ H := fun r hr' => hr ⟨r, hr'⟩
  obtain ⟨m₀, h₀, hg, ha⟩ := crash_sim (into h).1
  obtain ⟨gh, _, _, hI⟩ := simulation h₀
  rw [hg] at hI
  have moves : ∀ j o s, m.pc j = .at o s → (s = .lock → m.g.mu = none) → False := by
    intro j o s hp hl
    have hv : m.view j = some (o, .inl s) := by simp [Conf.view, hp, Proc.view]
    have hv₀ : m₀.view j = some (o, .inl s) := by have := ha j; rw [hv] at this; exact this
    obtain ⟨⟨g', y⟩, hy⟩ := enabled hI hv₀ hl
    have hn := hs j 0
    simp only [Prog.mach, hp, progU, Prog.must] at hn
    cases hB : hashPanics ok o s with
    | true => simp [hB] at hn
    | false =>
      simp only [hB, Bool.false_eq_true, if_false, prog, hy] at hn
      cases y <;> simp [lift] at hn
  rcases (progU ok).pending h hi hr with ⟨s, hp⟩ | ⟨r, hp⟩
  · refine moves i op s hp fun hl => Classical.byContradiction fun hmu => ?_
    obtain ⟨l, hl'⟩ := Option.ne_none_iff_exists'.mp hmu
    obtain ⟨⟨o, h1⟩, h2⟩ := C131_lock h hl'
    rcases (progU ok).pending h h1 h2 with ⟨s', hp'⟩ | ⟨r, hp'⟩
    · obtain ⟨o', s'', h3, h4⟩ := hI.muIn l hl'
      have hal := ha l
      rw [h3] at hal
      simp only [Conf.view, hp', Proc.view, Alike, Option.some.injEq, Prod.mk.injEq, Sum.inl.injEq] at hal
      obtain ⟨rfl, rfl⟩ := hal
      exact moves l _ _ hp' fun hl => by subst hl; simp [Pt.holds] at h4
    · have := hs l 0
      simp [Prog.mach, hp'] at this
  · have := hs i 0
    simp [Prog.mach, hp] at this

/-- Key 9 cannot be hashed: while a `Store` of another key holds the lock, a `Store`, a `ComputeIfAbsent` and a `Load` with it panic. -/
theorem demoUnhashable : ∃ m, (progU fun k : Nat => k != 9).mach.Exec m [.inv 1 (.store 0 5), .inv 2 (.store 9 6), .ret 2 none, .inv 3 (.computeIfAbsent 9 fun _ _ => 6),
      .ret 3 none, .inv 4 (.load 9), .ret 4 none, .ret 1 (some .unit), .inv 5 (.load 0), .ret 5 (some (.value (some 5)))] ∧
    ∀ j c, (progU fun k : Nat => k != 9).mach.next m j c = none := by
  have : ∃ m, (progU fun k : Nat => k != 9).mach.Exec m [.inv 1 (.store 0 5), .inv 2 (.store 9 6), .ret 2 none, .inv 3 (.computeIfAbsent 9 fun _ _ => 6),
      .ret 3 none, .inv 4 (.load 9), .ret 4 none, .ret 1 (some .unit), .inv 5 (.load 0), .ret 5 (some (.value (some 5)))] ∧
      (m.pc 1 = .done (.store 0 5) (some .unit) ∧ m.pc 2 = .done (.store 9 6) none ∧ m.pc 3 = .done (.computeIfAbsent 9 fun _ _ => 6) none ∧
      m.pc 4 = .done (.load 9) none ∧ m.pc 5 = .done (.load 0) (some (.value (some 5)))) :=
    Mach.exists_exec_state _ ([.inv 1 (.store 0 5)] ++ runs 3 1 ++ [.inv 2 (.store 9 6)] ++ runs 2 2 ++ [.inv 3 (.computeIfAbsent 9 fun _ _ => 6)] ++ runs 2 3 ++
      [.inv 4 (.load 9)] ++ runs 2 4 ++ runs 6 1 ++ [.inv 5 (.load 0)] ++ runs 8 5) _ _
      (by exact And.intro rfl (And.intro rfl (And.intro rfl (And.intro rfl (And.intro rfl rfl)))))
  obtain ⟨m, h, h1, h2, h3, h4, h5⟩ := this
  refine ⟨m, h, fun j c => ?_⟩
  by_cases e1 : j = 1
  · subst e1; simp [Prog.mach, h1]
  by_cases e2 : j = 2
  · subst e2; simp [Prog.mach, h2]
  by_cases e3 : j = 3
  · subst e3; simp [Prog.mach, h3]
  by_cases e4 : j = 4
  · subst e4; simp [Prog.mach, h4]
  by_cases e5 : j = 5
  · subst e5; simp [Prog.mach, h5]
  simp [Prog.mach, (progU fun k : Nat => k != 9).not_made h (i := j) (by simp [e1, e2, e3, e4, e5])]

example := demoUnhashable.imp fun _ h => C131_panics h.1 (i := 3) (op := .computeIfAbsent 9 fun _ _ => 6) (r := none) (by simp) (by simp)

example := demoUnhashable.imp fun _ h => C131_panics h.1 (i := 1) (op := .store 0 5) (r := some .unit) (by simp) (by simp)

example := demoUnhashable.imp fun _ h => C131_history h.1

example := demoUnhashable.imp fun _ h => C131_effects h.1

example := demoUnhashable.imp fun _ h => C131_ends h.1

example := demoUnhashable.imp fun _ h => C131_returns h.1 h.2 (i := 5) (op := .load 0) (by simp)

/-- The lock is held while a call panics. -/
theorem demoUnhashableLock : ∃ m, (progU fun k : Nat => k != 9).mach.Exec m [.inv 1 (.store 0 5), .inv 2 (.store 9 6), .ret 2 none] ∧ m.g.mu = some 1 :=
  Mach.exists_exec_state _ ([.inv 1 (.store 0 5)] ++ runs 3 1 ++ [.inv 2 (.store 9 6)] ++ runs 2 2) _ _ (by exact And.intro rfl rfl)

example := demoUnhashableLock.imp fun _ h => C131_lock h.1 h.2

end Verif.XSync.MapConc

import Verif.XSync.MapMemSim
import Verif.XSync.MapConcLive
/-!
# Properties of the memory-level program of `xsync.Map`

C92: there are no data races on the plain fields and the Go maps, and what has been proved about the program with map values holds here.
-/
set_option linter.unusedSectionVars false

namespace Verif.XSync.MapMem
open Verif.Conc Verif.Go
open Verif.XSync.MapConc (Ptr Op Res Mode delRes Pt Cont G M mapSpec strictSpec rank rankLt rankLt_wf runs)

variable {K V : Type}

/-- Abbreviation. -/
abbrev State (K V : Type) := Conf (Mem K V) (Op K V) (Res K V) (Cmd K V)

/-- Call `i` is about to access the plain location `l`; `w` tells whether it is a write. -/
def Accesses (m : State K V) (i : Nat) (l : Loc) (w : Bool) : Prop := ∃ op t, m.pc i = .at op t ∧ t.access = some (l, w)

/-- Two calls are about to access the same plain location and one of them to write to it. -/
def Race (m : State K V) : Prop := ∃ i j l w, i ≠ j ∧ Accesses m i l true ∧ Accesses m j l w

variable [DecidableEq K] [DecidableEq V]

/-- The access of a point: with the lock, and not writing to a published map, or a read of a published map. -/
def Fine (h : Bool) (D : Plain K) (a : Option (Loc × Bool)) : Prop :=
  ∀ l w, a = some (l, w) → (h = true ∧ (w = true → ∀ r, l = .map r → r ∉ D.pub)) ∨ (w = false ∧ ∃ r ∈ D.pub, l = .map r)

theorem Base.access {h : Bool} {D : Plain K} {op : Op K V} {t : Cmd K V} {x : Pt K V ⊕ Res K V} (hb : Base h D op t x) : Fine h D t.access := by
  have next : ∀ {h : Bool} (m : Option Nat) (seen : List K) (k : Option (K × Nat) → Cmd K V), D.Pub m → Fine h D (Cmd.mapNext m seen k).access := by
    intro h m seen k hm l w e
    cases m with
    | none => simp [Cmd.access] at e
    | some r =>
      simp only [Cmd.access, Option.some.injEq, Prod.mk.injEq] at e
      obtain ⟨rfl, rfl⟩ := e
      exact Or.inr ⟨rfl, r, hm r rfl, rfl⟩
  have none' : ∀ {h : Bool} (t : Cmd K V), t.access = none → Fine h D t.access := by
    intro h t ht l w e
    rw [ht] at e; cases e
  cases hb
  case start => cases op <;> exact none' _ rfl
  case lock => cases op <;> exact none' _ rfl
  case locked h => cases op <;> cases h <;> exact none' _ rfl
  case try' h => cases h <;> exact none' _ rfl
  case reL h => cases h; exact none' _ rfl
  case reA h => cases h; exact none' _ rfl
  case reP h => cases h; exact none' _ rfl
  case miss =>
    intro l w e
    simp only [missLocked, Cmd.access, Option.some.injEq, Prod.mk.injEq] at e
    obtain ⟨rfl, rfl⟩ := e
    exact Or.inl ⟨rfl, fun _ r h => by cases h⟩
  case build => exact next _ _ _ (by assumption)
  case iter h1 => exact next _ _ _ h1
  case iterL h1 _ _ => cases h1; exact none' _ rfl
  all_goals exact none' _ rfl

theorem At.access {h : Bool} {D : Plain K} {gd gm} {op : Op K V} {t : Cmd K V} {x : Pt K V ⊕ Res K V} (ha : At h D gd gm op t x) : Fine h D t.access := by
  have get : ∀ {h : Bool} (m : Option Nat) (a : Nat → Option (Loc × Bool)), (∀ r, a r = some (.map r, false)) → (h = true ∨ D.Pub m) →
      Fine h D (m.bind a) := by
    intro h m a hr hm l w e
    cases m with
    | none => simp at e
    | some r =>
      simp only [Option.bind_some, hr, Option.some.injEq, Prod.mk.injEq] at e
      obtain ⟨rfl, rfl⟩ := e
      rcases hm with hm | hm
      · exact Or.inl ⟨hm, by simp⟩
      · exact Or.inr ⟨rfl, r, hm r rfl, rfl⟩
  cases ha
  case base hb => exact hb.access
  case mapGet m key k h1 h2 => cases m <;> exact get _ (fun r => some (.map r, false)) (fun _ => rfl) h1
  case mapLen m k h1 h2 => cases m <;> exact get _ (fun r => some (.map r, false)) (fun _ => rfl) h1
  case mapSet r key e t h1 h2 h3 =>
    intro l w e
    simp only [Cmd.access, Option.some.injEq, Prod.mk.injEq] at e
    obtain ⟨rfl, rfl⟩ := e
    exact Or.inl ⟨rfl, fun _ r' h => by cases h; exact h2⟩
  case mapDel r key t h1 h2 h3 =>
    intro l w e
    simp only [Cmd.access, Option.some.injEq, Prod.mk.injEq] at e
    obtain ⟨rfl, rfl⟩ := e
    exact Or.inl ⟨rfl, fun _ r' h => by cases h; exact h2⟩
  all_goals
    intro l w e
    simp only [Cmd.access, Option.some.injEq, Prod.mk.injEq, reduceCtorEq] at e
    try obtain ⟨rfl, rfl⟩ := e
    try exact Or.inl ⟨rfl, fun _ r h => by cases h⟩

/-- **C92.** There is no data race: no two calls are ever about to access `m.dirty`, `m.misses` or the same Go map, one of them writing. -/
theorem C92_no_race {m : State K V} {H : List (Ev (Op K V) (Res K V))} (h : prog.mach.Exec m H) : ¬ Race m := by
  obtain ⟨m', _, hR⟩ := refines h
  have key : ∀ i l w, Accesses m i l w → Fine (decide (m.g.mu = some i)) m.g.d (some (l, w)) := by
    rintro i l w ⟨op, t, h1, h2⟩
    have := hR.2 i
    simp only [Conf.view, h1, Proc.view] at this
    obtain ⟨x, _, ha⟩ := this
    rw [← h2]
    exact ha.access
  rintro ⟨i, j, l, w, hij, hi, hj⟩
  rcases key i l true hi l true rfl with ⟨a1, a2⟩ | ⟨a1, _⟩
  · simp only [decide_eq_true_eq] at a1
    rcases key j l w hj l w rfl with ⟨b1, _⟩ | ⟨_, r, b1, b2⟩
    · simp only [decide_eq_true_eq] at b1
      rw [a1] at b1
      exact hij (Option.some.inj b1)
    · exact a2 rfl r b2 b1
  · cases a1

/-- After a promotion, a `Load` and a `Range` are about to read the published map while a `Store` is about to write to the new dirty map. -/
theorem demoAccess : ∃ m : State Nat Nat, prog.mach.Exec m
    [.inv 1 (.store 0 5), .ret 1 .unit, .inv 2 (.load 0), .ret 2 (.value (some 5)), .inv 3 (.store 1 6), .inv 4 (.load 0), .inv 5 (.range fun _ _ _ => true)] ∧
    Accesses m 3 (.map 1) true ∧ Accesses m 4 (.map 0) false ∧ Accesses m 5 (.map 0) false :=
  Mach.exists_exec_state _ ([.inv 1 (.store 0 5)] ++ runs 21 1 ++ [.inv 2 (.load 0)] ++ runs 19 2 ++ [.inv 3 (.store 1 6)] ++ runs 17 3 ++
    [.inv 4 (.load 0)] ++ runs 1 4 ++ [.inv 5 (.range fun _ _ _ => true)] ++ runs 2 5) _ _
    (by exact And.intro rfl (And.intro ⟨_, _, rfl, rfl⟩ (And.intro ⟨_, _, rfl, rfl⟩ ⟨_, _, rfl, rfl⟩)))

example : ∃ m : State Nat Nat, Accesses m 3 (.map 1) true ∧ Accesses m 4 (.map 0) false ∧ ¬ Race m :=
  demoAccess.elim fun m h => ⟨m, h.2.1, h.2.2.1, C92_no_race h.1⟩

/-! ## Progress -/

/-- Every instruction but `lock` can be executed. -/
theorem exec_enabled {M : Mem K V} {i : Nat} {t : Cmd K V} (hl : ∀ k, t = .lock k → M.mu = none) : ∃ M' y, exec M i t 0 = some (M', y) := by
  cases t with
  | lock k => simp [exec, hl k rfl]
  | casPtr e old new k => simp only [exec]; split <;> exact ⟨_, _, rfl⟩
  | mapSet m key e k => cases m <;> exact ⟨_, _, rfl⟩
  | mapDel m key k => cases m <;> exact ⟨_, _, rfl⟩
  | mapNext m seen k =>
    simp only [exec]
    split
    · exact ⟨_, _, rfl⟩
    · rename_i hne
      have hpos : 0 < (M.d.rest m seen).length := List.length_pos_iff.2 hne
      rw [List.getElem?_eq_getElem (by exact Nat.mod_lt _ hpos)]
      exact ⟨_, _, rfl⟩
  | _ => exact ⟨_, _, rfl⟩

theorem exec_mu {M M' : Mem K V} {i c : Nat} {t : Cmd K V} {y} (h : exec M i t c = some (M', y)) (hm : M.mu = none ∨ M.mu = some i) :
    M'.mu = none ∨ M'.mu = some i := by
  unfold exec at h
  split at h <;> (try simp only [Option.some.injEq, Prod.mk.injEq] at h) <;> grind

/-- Proof only: the access takes the lock. -/
def Cmd.isLock : Cmd K V → Bool
  | .lock _ => true
  | _ => false

theorem Base.isLock {h : Bool} {D : Plain K} {op : Op K V} {t : Cmd K V} {x : Pt K V ⊕ Res K V} (hb : Base h D op t x) (ht : t.isLock = true) : h = false := by
  cases hb <;> try rfl
  case locked h => cases op <;> cases h <;> cases ht
  case try' h => cases h <;> cases ht
  case reL h => cases h; cases ht
  case reA h => cases h; cases ht
  case reP h => cases h; cases ht
  all_goals cases ht

/-- A call that waits for the lock does not hold it. -/
theorem At.isLock {h : Bool} {D : Plain K} {gd gm} {op : Op K V} {t : Cmd K V} {x : Pt K V ⊕ Res K V} (ha : At h D gd gm op t x) (ht : t.isLock = true) :
    h = false := by
  cases ha
  case base hb => exact hb.isLock ht
  all_goals cases ht

/-- The measure of a call there, also of one that has its result. -/
def rk (g : G K V) : Pt K V ⊕ Res K V → Nat × Nat
  | .inl s => rank g s
  | .inr _ => (0, 0)

theorem rk_step {g g' : G K V} {i : Nat} {op : Op K V} {s : Pt K V} {x : Pt K V ⊕ Res K V} {c : Nat} (h : MapConc.step g i op s c = some (g', x)) :
    rankLt (rk g' x) (rk g (.inl s)) := by
  cases x with
  | inl s' => exact MapConc.rank_step h
  | inr r =>
    refine Or.inl ?_
    simp only [rk]
    cases s <;> simp only [rank] <;> (try split) <;> omega

theorem step_at {m : State K V} {H : List (Ev (Op K V) (Res K V))} {m' : Conf (G K V) (Op K V) (Res K V) (Pt K V)}
    (h' : MapConc.prog.mach.Exec m' H) (hR : Rel m.g m'.g m.view m'.view) {i c : Nat} {op : Op K V} {t : Cmd K V} {M1 y} (hpc : m.pc i = .at op t)
    (hst : exec m.g i t c = some (M1, y)) :
    ∃ m1 : State K V, prog.mach.Leads m H m1 H ∧ m1.g = M1 ∧ m1.pc i = y.elim (.at op) (.ret op) ∧
      (∀ j, j ≠ i → m1.pc j = m.pc j) ∧
      (Rel m1.g m'.g m1.view m'.view ∧ (∀ z, m'.view i = some (op, z) → quiet t z = true) ∨ ∃ m1' : Conf (G K V) (Op K V) (Res K V) (Pt K V), MapConc.prog.mach.Exec m1' H ∧
        Rel m1.g m1'.g m1.view m1'.view ∧ ∃ s x', m'.view i = some (op, .inl s) ∧ m1'.view i = some (op, x') ∧ rankLt (rk m1'.g x') (rk m'.g (.inl s))) := by
  have hv : m.view i = some (op, .inl t) := by simp [Conf.view, hpc, Proc.view]
  have key := rel_step h' hR hv hst
  have hex : ∃ m1 : State K V, prog.mach.Leads m H m1 H ∧ m1.g = M1 ∧ m1.pc = upd m.pc i (y.elim (.at op) (.ret op)) ∧
      m1.view = upd m.view i (some (op, y)) := by
    cases y with
    | inl t' =>
      refine ⟨⟨M1, upd m.pc i (.at op t')⟩, .tau (j := i) (c := c) ?_ .refl, rfl, rfl, view_upd ..⟩
      simp only [Prog.mach, hpc]
      rw [show prog.step m.g i op t c = some (M1, .inl t') from hst]
    | inr r =>
      refine ⟨⟨M1, upd m.pc i (.ret op r)⟩, .tau (j := i) (c := c) ?_ .refl, rfl, rfl, view_upd ..⟩
      simp only [Prog.mach, hpc]
      rw [show prog.step m.g i op t c = some (M1, .inr r) from hst]
  obtain ⟨m1, e1, e2, e3, e4⟩ := hex
  refine ⟨m1, e1, e2, by simp [e3], fun j hj => by simp [e3, upd_ne _ _ hj], ?_⟩
  rw [e2, e4]
  rcases key with k1 | ⟨s, c', g', x', k1, k2, k3⟩
  · exact Or.inl k1
  · obtain ⟨m1', f1, f2, f3, _⟩ := Prog.exec_step h' k1 k2
    exact Or.inr ⟨m1', f1, by rw [f2, f3]; exact k3, s, x', k1, by simp [f3], by rw [f2]; exact rk_step k2⟩

/-- What is proved of a call that runs alone. -/
def Returns (m : State K V) (H : List (Ev (Op K V) (Res K V))) (i : Nat) : Prop :=
  ∃ m1 r, prog.mach.Leads m H m1 (H ++ [.ret i r]) ∧ m1.g.mu = none ∧ ∀ j, j ≠ i → m1.pc j = m.pc j

theorem returns_ret {m : State K V} {H : List (Ev (Op K V) (Res K V))} (h : prog.mach.Exec m H) {i : Nat} {op : Op K V} {r : Res K V}
    (hpc : m.pc i = .ret op r) (hm : m.g.mu = none ∨ m.g.mu = some i) : Returns m H i := by
  refine ⟨⟨m.g, upd m.pc i (.done op r)⟩, r, .ev (j := i) (c := 0) (by simp [Prog.mach, hpc]) .refl, ?_, fun j hj => by simp [upd_ne _ _ hj]⟩
  rcases hm with hm | hm
  · exact hm
  · exfalso
    obtain ⟨m', h', hR⟩ := refines h
    obtain ⟨gh, _, _, hI⟩ := MapConc.simulation h'
    obtain ⟨o, s, a1, _⟩ := hI.muIn i (hR.1.mu.trans hm)
    have := hR.2 i
    rw [show m.view i = some (op, .inr r) by simp [Conf.view, hpc, Proc.view]] at this
    rw [show m'.view i = some (op, .inr r) from this] at a1
    simp at a1

/-- A call at `t` here and at `x` there that runs alone. -/
structure Alone (n : Nat × Nat) (h : Bool) (D : Plain K) (gd : Option (GMap K Nat)) (gm : Nat) (op : Op K V) (t : Cmd K V) (x : Pt K V ⊕ Res K V)
    (m : State K V) (H : List (Ev (Op K V) (Res K V))) (m' : Conf (G K V) (Op K V) (Res K V) (Pt K V)) (i : Nat) : Prop where
  run : prog.mach.Exec m H
  run' : MapConc.prog.mach.Exec m' H
  rel : Rel m.g m'.g m.view m'.view
  pc : m.pc i = .at op t
  view : m'.view i = some (op, x)
  held : h = decide (m.g.mu = some i)
  d : D = m.g.d
  dirty : gd = m'.g.dirty
  misses : gm = m'.g.misses
  mu : m.g.mu = none ∨ m.g.mu = some i
  rank : rk m'.g x = n

theorem Alone.at {n h D gd gm op t x} {m : State K V} {H m' i} (ha : Alone n h D gd gm op t x m H m' i) : At h D gd gm op t x := by
  have := ha.rel.2 i
  rw [show m.view i = some (op, .inl t) by simp [Conf.view, ha.pc, Proc.view]] at this
  obtain ⟨x', h1, h2⟩ := this
  rw [ha.view] at h1
  cases h1
  rw [ha.held, ha.d, ha.dirty, ha.misses]
  exact h2

theorem Alone.go {n h D gd gm op t x} {m : State K V} {H m' i} (ha : Alone n h D gd gm op t x m H m' i)
    (ih : ∀ n', rankLt n' n → ∀ {h D gd gm op t x} {m : State K V} {H m' i}, Alone n' h D gd gm op t x m H m' i → Returns m H i)
    (hleft : ∀ m1 : State K V, ∀ M1 t', MapMem.exec m.g i t 0 = some (M1, .inl t') → quiet t x = true →
      Alone n (decide (M1.mu = some i)) M1.d gd gm op t' x m1 H m' i → Returns m1 H i) : Returns m H i := by
  have hA := ha.at
  obtain ⟨he, he', hR, hpc, hv, rfl, rfl, rfl, rfl, hmu, hn⟩ := ha
  obtain ⟨M1, y, hst⟩ := exec_enabled (M := m.g) (i := i) (t := t) (fun k hk => by
    have := hA.isLock (by rw [hk]; rfl)
    simp only [decide_eq_false_iff_not] at this
    exact hmu.resolve_right this)
  obtain ⟨m1, e0, e2, e3, e4, e5⟩ := step_at he' hR hpc hst
  have e1 := e0.exec he
  have hmu1 : m1.g.mu = none ∨ m1.g.mu = some i := by rw [e2]; exact exec_mu hst hmu
  have lift : Returns m1 H i → Returns m H i := fun ⟨m2, r, a1, a2, a3⟩ => ⟨m2, r, e0.trans a1, a2, fun j hj => (a3 j hj).trans (e4 j hj)⟩
  refine lift ?_
  cases y with
  | inr r => exact returns_ret e1 e3 hmu1
  | inl t' =>
    rcases e5 with ⟨e5, e6⟩ | ⟨m1', f1, f2, s, x', f3, f4, f5⟩
    · exact hleft m1 M1 t' hst (e6 _ hv) ⟨e1, he', e5, e3, hv, by rw [e2], by rw [e2], rfl, rfl, hmu1, hn⟩
    · rw [hv] at f3; cases f3
      exact ih _ (by rw [← hn]; exact f5) ⟨e1, f1, f2, e3, f4, rfl, rfl, rfl, rfl, hmu1, rfl⟩

/-- A call that runs alone returns. -/
theorem Alone.returns (n : Nat × Nat) : ∀ {h D gd gm op t x} {m : State K V} {H m' i}, Alone n h D gd gm op t x m H m' i → Returns m H i := by
  induction n using rankLt_wf.induction with
  | _ n ih =>
  intro h D gd gm op t x m H m' i ha
  have hA := ha.at
  induction hA generalizing m with
  | @base h D gd gm op t x hb hE =>
    refine ha.go ih fun m1 M1 t' hst hq ha1 => ?_
    have hm := ha.rel.1
    cases hb <;> try (cases hq; done)
    case start => cases op <;> cases hq
    case lock => cases op <;> cases hq
    case locked h => cases op <;> cases h <;> cases hq
    case try' h => cases h <;> cases hq
    case reL h => cases h; cases hq
    case reA h => cases h; cases hq
    case reP h => cases h; cases hq
    case iterL => cases ‹code _ = _›; cases hq
    case iter f mm seen vis hp =>
      simp only [code, MapMem.exec] at hst
      split at hst
      · simp only [Option.some.injEq, Prod.mk.injEq, Sum.inl.injEq] at hst
        obtain ⟨_, rfl⟩ := hst
        refine ha1.go ih fun m2 M2 t2 hst2 _ _ => ?_
        cases hst2
      · split at hst
        · cases hst
        · simp only [Option.some.injEq, Prod.mk.injEq, Sum.inl.injEq] at hst
          obtain ⟨_, rfl⟩ := hst
          refine ha1.go ih fun m2 M2 t2 hst2 hq2 _ => ?_
          cases hq2
  | ret => exact ha.go ih fun m1 M1 t' hst _ _ => by cases hst
  | mapSetNil => exact ha.go ih fun m1 M1 t' hst _ _ => by cases hst
  | goto _ ih2 | getDirty _ ih2 | getMisses _ ih2 | setDirty _ _ ih2 | setMisses _ ih2 | mapGet _ _ ih2 | mapLen _ _ ih2 | mapSet _ _ _ ih2 | mapDelNil _ ih2
    | mapDel _ _ _ ih2 | newMap _ ih2 =>
    refine ha.go ih fun m1 M1 t' hst _ ha1 => ?_
    simp only [MapMem.exec, Option.some.injEq, Prod.mk.injEq, Sum.inl.injEq] at hst
    obtain ⟨rfl, rfl⟩ := hst
    simp only [← ha.held, ← ha.d] at ha1
    exact ih2 ha1

theorem returns_at {m : State K V} {H : List (Ev (Op K V) (Res K V))} (h : prog.mach.Exec m H) {i : Nat} {op : Op K V}
    (hpc : (∃ t, m.pc i = .at op t) ∨ ∃ r, m.pc i = .ret op r) (hm : m.g.mu = none ∨ m.g.mu = some i) : Returns m H i := by
  rcases hpc with ⟨t, hpc⟩ | ⟨r, hpc⟩
  · obtain ⟨m', h', hR⟩ := refines h
    have := hR.2 i
    rw [show m.view i = some (op, .inl t) by simp [Conf.view, hpc, Proc.view]] at this
    obtain ⟨x, h1, _⟩ := this
    exact Alone.returns _ ⟨h, h', hR, hpc, h1, rfl, rfl, rfl, rfl, hm, rfl⟩
  · exact returns_ret h hpc hm

/-- **C92.** There is no deadlock: from every reachable state, every call that has not returned can still return, without new calls. -/
theorem C92_no_deadlock {m : State K V} {H : List (Ev (Op K V) (Res K V))} (h : prog.mach.Exec m H) {i : Nat} {op : Op K V}
    (hi : Ev.inv i op ∈ H) (hr : ∀ r, Ev.ret i r ∉ H) : ∃ m' H' r, prog.mach.Leads m H m' (H ++ H') ∧ Ev.ret i r ∈ H' := by
  have hp := prog.pending h hi hr
  cases hmu : m.g.mu with
  | none =>
    obtain ⟨m1, r, h1, _⟩ := returns_at h hp (Or.inl hmu)
    exact ⟨m1, _, r, h1, by simp⟩
  | some j =>
    by_cases hj : j = i
    · subst hj
      obtain ⟨m1, r, h1, _⟩ := returns_at h hp (Or.inr hmu)
      exact ⟨m1, _, r, h1, by simp⟩
    · obtain ⟨m', h', hR⟩ := refines h
      obtain ⟨gh, _, _, hI⟩ := MapConc.simulation h'
      obtain ⟨o, s, h1, _⟩ := hI.muIn j (hR.1.mu.trans hmu)
      have hpj : ∃ t, m.pc j = .at o t := by
        have := hR.2 j
        rw [h1] at this
        cases hq : m.pc j <;> simp [Conf.view, Proc.view, hq, Own] at this
        rw [this.1]
        exact ⟨_, rfl⟩
      obtain ⟨m1, r, h2, h3, h4⟩ := returns_at h (Or.inl hpj) (Or.inr hmu)
      obtain ⟨m2, r2, h5, _⟩ := returns_at (h2.exec h) (i := i) (op := op) (by rw [h4 i (Ne.symm hj)]; exact hp) (Or.inl h3)
      exact ⟨m2, [.ret j r, .ret i r2], r2, by simpa using h2.trans h5, by simp⟩

/-- A `Store` waits for a `ComputeIfAbsent` that holds the lock and is about to build the dirty map. -/
theorem demoWait : ∃ m : State Nat Nat, prog.mach.Exec m [.inv 1 (.computeIfAbsent 0 fun _ _ => 5), .inv 2 (.store 0 6)] ∧ m.g.mu = some 1 :=
  Mach.exists_exec_state _ ([.inv 1 (.computeIfAbsent 0 fun _ _ => 5)] ++ runs 10 1 ++ [.inv 2 (.store 0 6)] ++ runs 2 2) _ _ (by exact And.intro rfl rfl)

example := demoWait.imp fun _ h => C92_no_deadlock (i := 2) (op := .store 0 6) h.1 (by simp) (by simp)

/-! ## The properties of the program with map values -/

/-- **C92.** Every history of the memory-level program is a history of the program with map values. -/
theorem C92_refines {m : State K V} {H : List (Ev (Op K V) (Res K V))} (h : prog.mach.Exec m H) : ∃ m', MapConc.prog.mach.Exec m' H :=
  (refines h).imp fun _ h => h.1

/-- A concurrent execution with a promotion, an expunged entry and a `LoadOrStore` that meets it. -/
theorem demo : ∃ m : State Nat Nat, prog.mach.Exec m
    [.inv 1 (.store 0 5), .ret 1 .unit, .inv 2 (.load 0), .ret 2 (.value (some 5)), .inv 3 (.delete 0), .ret 3 .unit,
     .inv 4 (.loadOrStore 0 6), .inv 5 (.store 1 9), .ret 5 .unit, .ret 4 (.loaded (some 6) false), .inv 6 (.load 0), .ret 6 (.value (some 6))] :=
  Mach.exists_exec _ ([.inv 1 (.store 0 5)] ++ runs 21 1 ++ [.inv 2 (.load 0)] ++ runs 19 2 ++ [.inv 3 (.delete 0)] ++ runs 7 3 ++
    [.inv 4 (.loadOrStore 0 6)] ++ runs 3 4 ++ [.inv 5 (.store 1 9)] ++ runs 26 5 ++ runs 14 4 ++ [.inv 6 (.load 0)] ++ runs 5 6) _ rfl

example := demo.elim fun _ h => C92_refines h

/-- **C92** (C21 at the level of memory accesses). Every history without `ComputeIfPresent` is linearizable. -/
theorem C92_linearizable {m : State K V} {H : List (Ev (Op K V) (Res K V))} (h : prog.mach.Exec m H)
    (hno : ∀ i k f, Ev.inv i (.computeIfPresent k f) ∉ H) : Linearizable strictSpec H :=
  (C92_refines h).elim fun _ h => MapConc.C21_linearizable h hno

example := demo.elim fun _ h => C92_linearizable h (by simp)

/-- **C92** (C85 at the level of memory accesses). No operation panics. -/
theorem C92_no_panic {m : State K V} {H : List (Ev (Op K V) (Res K V))} (h : prog.mach.Exec m H) (i : Nat) : Ev.ret i .panic ∉ H :=
  (C92_refines h).elim fun _ h => MapConc.C85_no_panic h i

example := demo.elim fun _ h => C92_no_panic h 4

/-- **C92** (C22 at the level of memory accesses). -/
theorem C92_computeIfPresent {m : State K V} {H : List (Ev (Op K V) (Res K V))} (h : prog.mach.Exec m H) : ∃ L st, Linearization mapSpec H L st ∧
    ∀ i k f w v, Ev.inv i (.computeIfPresent k f) ∈ H → Ev.ret i (.present (some (w, v))) ∈ H →
      ∃ n n', L[n']? = some (i, .computeIfPresent k f, .present (some (w, v))) ∧ During H L i n ∧ n ≤ n' ∧ st n k = some w ∧
        ((∀ j op, Ev.inv j op ∈ H → j ≠ i → op.key? = some k → op ≠ .load k → Before H i j ∨ Before H j i) → st n' k = some w) :=
  (C92_refines h).elim fun _ h => MapConc.C22_computeIfPresent_partial h

/-- The lost update of C22. -/
theorem demoLost : ∃ m : State Nat Nat, prog.mach.Exec m MapConc.lostUpdate :=
  Mach.exists_exec _ ([.inv 1 (.store 0 0)] ++ runs 21 1 ++ [.inv 2 (.load 0)] ++ runs 19 2 ++ [.inv 3 (.computeIfPresent 0 MapConc.inc)] ++ runs 5 3 ++
    [.inv 4 (.computeIfPresent 0 MapConc.inc)] ++ runs 9 4 ++ runs 7 3 ++ [.inv 5 (.load 0)] ++ runs 5 5) _ rfl

example := demoLost.elim fun _ h => C92_computeIfPresent h

/-- **C22 is false**, also at the level of memory accesses. -/
theorem C92_lost_update_refuted : ∃ m : State Nat Nat, prog.mach.Exec m MapConc.lostUpdate ∧ ¬ Linearizable (strictSpec (K := Nat) (V := Nat)) MapConc.lostUpdate :=
  demoLost.elim fun m h => ⟨m, h, MapConc.lostUpdate_not_linearizable⟩

/-- **C92** (C23 at the level of memory accesses). -/
theorem C92_range {m : State K V} {H : List (Ev (Op K V) (Res K V))} (h : prog.mach.Exec m H) :
    ∃ L st, Linearization mapSpec H L st ∧ ∀ i f l all, Ev.inv i (.range f) ∈ H → Ev.ret i (.visited l all) ∈ H →
      (l.map (·.1)).Nodup ∧ (∀ k v, (k, v) ∈ l → ∃ n, During H L i n ∧ st n k = some v) ∧
      (all = true → ∀ k, (∀ n, During H L i n → st n k ≠ none) → ∃ v, (k, v) ∈ l) :=
  (C92_refines h).elim fun _ h => MapConc.C23_range h

/-- A `Range` concurrent with a `Delete` and a `Store`. -/
theorem demoRange : ∃ m : State Nat Nat, prog.mach.Exec m
    [.inv 1 (.store 0 5), .ret 1 .unit, .inv 2 (.store 1 6), .ret 2 .unit, .inv 3 (.range fun _ _ _ => true), .inv 4 (.delete 1), .ret 4 .unit,
     .inv 5 (.store 2 7), .ret 5 .unit, .ret 3 (.visited [(0, 5)] true)] :=
  Mach.exists_exec _ ([.inv 1 (.store 0 5)] ++ runs 21 1 ++ [.inv 2 (.store 1 6)] ++ runs 13 2 ++ [.inv 3 (.range fun _ _ _ => true)] ++ runs 8 3 ++
    [.inv 4 (.delete 1)] ++ runs 7 4 ++ [.inv 5 (.store 2 7)] ++ runs 32 5 ++ runs 11 3) _ rfl

example := demoRange.elim fun _ h => C92_range h

end Verif.XSync.MapMem

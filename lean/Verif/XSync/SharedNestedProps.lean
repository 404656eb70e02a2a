import Verif.XSync.SharedNested
/-!
# C123 for `xsync.SharedMap`: user functions that make calls on it

`NExec (prog m) (fns U)` are the executions in which the functions given to `Range`, `ComputeIfAbsent` and `ComputeIfPresent` make the calls
that `U` says, at any depth, on any number of goroutines.
-/
namespace Verif.XSync.SharedConc
open Verif.Conc Verif.Go
open Verif.XSync.MapConc (G Pt inside)

variable {V : Type} [DecidableEq V] {m : Shape} {H : List (Ev (SOp V) (SRes V))}

/-- Abbreviation. -/
abbrev NCf (V : Type) := NConf (Nat → G Bytes V) (SOp V) (SRes V) (CPt (BOp V) (BRes V) (Pt Bytes V))

/-- **C123.** Calls made by user functions are calls like any others: a history with nested calls is a history of calls. So it has the
guarantees that C87, C88 and C89 (no panic) give for histories, whatever the functions do. -/
theorem C123_shared_history {U : Users V} {n : NCf V} (h : NExec (prog m) (fns U) n H) : (prog m).mach.Exec n.m H := h.flat

/-- **C123.** In particular calls on single keys, nested ones included, take effect one after the other, each of them while it runs. -/
theorem C123_shared_linearizable {opts : List Int} (h1 : 1 ≤ Shared.requested opts) (h2 : Shared.requested opts ≤ 2^31) (hm : newShape opts = some m) {U : Users V}
    {n : NCf V} (h : NExec (prog m) (fns U) n H) (hk : ∀ i op, Ev.inv i op ∈ H → op.OneKey ∧ ∀ k f, op ≠ .computeIfPresent k f) :
    Linearizable strictShared H := C87_linearizable h1 h2 hm h.flat hk

/-- **C123.** If every function makes finitely many calls and the depth of the nesting is limited, then no schedule runs on forever, unless
goroutines begin new calls (there may be a deadlock). -/
theorem C123_shared_ends {U : Users V} {rank : SOp V → Nat} (hd : Depth U rank) (hf : Finite U) {n : NCf V} (h : NExec (prog m) (fns U) n H) :
    Acc (NMoves (prog m) (fns U)) n := h.ends (finitary hd hf) C115_shared_ends

/-- **C123, the part that holds.** There is no deadlock if the functions of `ComputeIfAbsent` and `ComputeIfPresent` use only shards that come
later than the shard of their key, in some order of the shards: where nothing moves, every call has returned. -/
theorem C123_shared_returns_partial {U : Users V} {pos : Nat → Nat} (hU : Ordered m pos U) {n : NCf V} (h : NExec (prog m) (fns U) n H)
    (hs : n.Stuck (prog m) (fns U)) {i : Nat} {op : SOp V} (hi : Ev.inv i op ∈ H) : ∃ r, Ev.ret i r ∈ H :=
  h.all_returned (h.no_deadlock (levels hU) hs) hi

/-- The functions load the other one of the keys 97 and 98, once. -/
def loadOther : Users Nat := fun op k _ _ tr => match op, tr with
  | .computeIfAbsent _ _, [] => some (.load (if k = [97] then [98] else [97]))
  | _, _ => none

/-- The functions load the key 99, once. -/
def loadSame : Users Nat := fun op _ _ _ tr => match op, tr with
  | .computeIfAbsent _ _, [] => some (.load [99])
  | _, _ => none

/-- `Range` stores under every key; the functions of `ComputeIfAbsent` for keys of shard 0 load key 98, which is in shard 1. -/
def upwards : Users Nat := fun op k _ _ tr => match op, tr with
  | .computeIfAbsent k₀ _, [] => if two.index k₀ = 0 then some (.load [98]) else none
  | .range _, [] => some (.computeIfAbsent (0 :: k) fun _ _ => 7)
  | _, _ => none

/-- For the concrete cases beside the theorems. -/
def depthTwo : SOp Nat → Nat
  | .range _ => 2
  | .computeIfAbsent _ _ => 1
  | _ => 0

theorem once {U : Users Nat} (h : ∀ op k v n tr, tr ≠ [] → U op k v n tr = none) : Finite U := by
  intro op k v n
  refine Subrelation.wf (r := InvImage (· < ·) fun tr => 1 - tr.length) ?_ (InvImage.wf _ Nat.lt_wfRel.wf)
  rintro tr' tr ⟨op', r, h1, rfl⟩
  have : tr = [] := Classical.byContradiction fun hc => by rw [h _ _ _ _ _ hc] at h1; simp at h1
  subst this
  simp [InvImage]

theorem upwards_finite : Finite upwards := once fun op k v n tr h => by
  cases tr with
  | nil => exact absurd rfl h
  | cons => cases op <;> rfl

theorem upwards_depth : Depth upwards depthTwo := by
  intro op k v n tr op' h
  cases tr <;> cases op <;> simp [upwards] at h
  · rw [← h.2]; simp [depthTwo]
  · rw [← h]; simp [depthTwo]

theorem upwards_ordered : Ordered two id upwards := by
  intro op k₀ k v n tr op' x h1 h2 h3
  cases tr <;> cases op <;> simp [upwards, computes] at h1 h2
  subst h1
  rw [← h2.2] at h3
  simp only [id, h2.1]
  have h4 : two.index [98] = x := h3
  rw [← h4]
  decide

/-- Both are finite and one level deep. -/
theorem loadOther_finite : Finite loadOther := once fun op k v n tr h => by
  cases tr with
  | nil => exact absurd rfl h
  | cons => cases op <;> rfl

theorem loadSame_finite : Finite loadSame := once fun op k v n tr h => by
  cases tr with
  | nil => exact absurd rfl h
  | cons => cases op <;> rfl

theorem loadOther_depth : Depth loadOther depthTwo := by
  intro op k v n tr op' h
  cases tr <;> cases op <;> simp [loadOther] at h
  rw [← h]; simp [depthTwo]

theorem loadSame_depth : Depth loadSame depthTwo := by
  intro op k v n tr op' h
  cases tr <;> cases op <;> simp [loadSame] at h
  rw [← h]; simp [depthTwo]

/-- For the concrete cases beside the theorems. -/
def nruns (n t : Nat) : List (NMove (SOp Nat)) := List.replicate n (.run t 0)

/-- **C123, the refutation.** A function of `ComputeIfAbsent` that loads another key of the same shard: neither call returns, however the
execution continues. -/
theorem C123_shared_same_refuted : ∃ (n : NCf Nat) (H : _), NExec (prog two) (fns loadSame) n H ∧ H = [.inv 1 (.computeIfAbsent [97] fun _ _ => 5), .inv 2 (.load [99])] ∧
    ∀ n' H', NLeads (prog two) (fns loadSame) n H n' H' → ∀ r, Ev.ret 1 r ∉ H' ∧ Ev.ret 2 r ∉ H' := by
  have : ∃ n : NCf Nat, NExec (prog two) (fns loadSame) n [.inv 1 (.computeIfAbsent [97] fun _ _ => 5), .inv 2 (.load [99])] ∧
      n.stack 7 = [(2, []), (1, [])] ∧ n.m.pc 1 = .at (.computeIfAbsent [97] fun _ _ => 5) (.inner [] (0, .computeIfAbsent [97] fun _ _ => 5) .addCall) ∧
      n.m.pc 2 = .at (.load [99]) (.inner [] (0, .load [99]) .lock) ∧ (n.m.g 0).mu = some (Nat.pair 1 0) :=
    exists_nexec ([.start 7 1 (.computeIfAbsent [97] fun _ _ => 5)] ++ nruns 7 7 ++ [.nest 7 2] ++ nruns 2 7) _ _
      (by exact And.intro rfl (And.intro rfl (And.intro rfl (And.intro rfl rfl))))
  obtain ⟨n, h1, h2, h3, h4, h5⟩ := this
  refine ⟨n, _, h1, rfl, fun n' H' hl r => ?_⟩
  have hd : Deadlocked (fun t => t = 7) n := by
    rintro t rfl
    exact ⟨2, [], _, _, _, _, _, 1, 0, 7, [], h2, h4, h5, rfl, by rw [h2]; simp⟩
  have hS := hd.forever h1 hl
  exact ⟨hS.not_returned (hl.exec h1) (t := 7) (tr := []) rfl (by rw [h2]; simp) (fun o r' hc => by rw [h3] at hc; simp at hc) r,
    hS.not_returned (hl.exec h1) (t := 7) (tr := []) rfl (by rw [h2]; simp) (fun o r' hc => by rw [h4] at hc; simp at hc) r⟩

/-- **C123, the refutation.** Functions that load keys of other shards only: two goroutines wait for each other forever. -/
theorem C123_shared_cross_refuted : ∃ (n : NCf Nat) (H : _), NExec (prog two) (fns loadOther) n H ∧
    H = [.inv 1 (.computeIfAbsent [97] fun _ _ => 5), .inv 2 (.computeIfAbsent [98] fun _ _ => 6), .inv 3 (.load [98]), .inv 4 (.load [97])] ∧
    ∀ n' H', NLeads (prog two) (fns loadOther) n H n' H' → ∀ i r, i ∈ [1, 2, 3, 4] → Ev.ret i r ∉ H' := by
  have : ∃ n : NCf Nat, NExec (prog two) (fns loadOther) n [.inv 1 (.computeIfAbsent [97] fun _ _ => 5), .inv 2 (.computeIfAbsent [98] fun _ _ => 6),
        .inv 3 (.load [98]), .inv 4 (.load [97])] ∧
      n.stack 7 = [(3, []), (1, [])] ∧ n.stack 8 = [(4, []), (2, [])] ∧
      n.m.pc 1 = .at (.computeIfAbsent [97] fun _ _ => 5) (.inner [] (0, .computeIfAbsent [97] fun _ _ => 5) .addCall) ∧
      n.m.pc 2 = .at (.computeIfAbsent [98] fun _ _ => 6) (.inner [] (1, .computeIfAbsent [98] fun _ _ => 6) .addCall) ∧
      n.m.pc 3 = .at (.load [98]) (.inner [] (1, .load [98]) .lock) ∧ n.m.pc 4 = .at (.load [97]) (.inner [] (0, .load [97]) .lock) ∧
      (n.m.g 0).mu = some (Nat.pair 1 0) ∧ (n.m.g 1).mu = some (Nat.pair 2 0) :=
    exists_nexec ([.start 7 1 (.computeIfAbsent [97] fun _ _ => 5)] ++ nruns 7 7 ++ [.start 8 2 (.computeIfAbsent [98] fun _ _ => 6)] ++ nruns 7 8 ++
      [.nest 7 3] ++ nruns 2 7 ++ [.nest 8 4] ++ nruns 2 8) _ _
      (by exact And.intro rfl (And.intro rfl (And.intro rfl (And.intro rfl (And.intro rfl (And.intro rfl (And.intro rfl (And.intro rfl rfl))))))))
  obtain ⟨n, h1, h2, h3, p1, p2, p3, p4, h5, h6⟩ := this
  refine ⟨n, _, h1, rfl, fun n' H' hl i r hi => ?_⟩
  have hd : Deadlocked (fun t => t = 7 ∨ t = 8) n := by
    rintro t (rfl | rfl)
    · exact ⟨3, [], _, _, _, _, _, 2, 0, 8, [], h2, p3, h6, .inr rfl, by rw [h3]; simp⟩
    · exact ⟨4, [], _, _, _, _, _, 1, 0, 7, [], h3, p4, h5, .inl rfl, by rw [h2]; simp⟩
  have hS := hd.forever h1 hl
  simp only [List.mem_cons, List.not_mem_nil, or_false] at hi
  rcases hi with rfl | rfl | rfl | rfl
  · exact hS.not_returned (hl.exec h1) (t := 7) (tr := []) (.inl rfl) (by rw [h2]; simp) (fun o r' hc => by rw [p1] at hc; simp at hc) r
  · exact hS.not_returned (hl.exec h1) (t := 8) (tr := []) (.inr rfl) (by rw [h3]; simp) (fun o r' hc => by rw [p2] at hc; simp at hc) r
  · exact hS.not_returned (hl.exec h1) (t := 7) (tr := []) (.inl rfl) (by rw [h2]; simp) (fun o r' hc => by rw [p3] at hc; simp at hc) r
  · exact hS.not_returned (hl.exec h1) (t := 8) (tr := []) (.inr rfl) (by rw [h3]; simp) (fun o r' hc => by rw [p4] at hc; simp at hc) r

/-- Three levels: `Range` calls its function, which calls `ComputeIfAbsent`, whose function calls `Load`. -/
theorem demoNest : ∃ n : NCf Nat, NExec (prog two) (fns upwards) n [.inv 1 (.store [97] 5), .ret 1 .unit, .inv 2 (.range fun _ _ _ => true),
      .inv 3 (.computeIfAbsent [0, 97] fun _ _ => 7), .inv 4 (.load [98])] ∧ n.stack 7 = [(4, []), (3, []), (2, [])] :=
  exists_nexec ([.start 7 1 (.store [97] 5)] ++ nruns 11 7 ++ [.start 7 2 (.range fun _ _ _ => true)] ++ nruns 7 7 ++ [.nest 7 3] ++ nruns 9 7 ++ [.nest 7 4] ++
    nruns 1 7) _ _ (by exact And.intro rfl rfl)

example := demoNest.imp fun _ h => C123_shared_history h.1

example := demoNest.imp fun _ h => C123_shared_ends upwards_depth upwards_finite h.1

/-- From the state of `demoNest` an execution leads to one in which nothing moves, and all have returned there. -/
example : ∃ n H r r' r'', NExec (prog two) (fns upwards) n H ∧ n.Stuck (prog two) (fns upwards) ∧ Ev.ret 2 r ∈ H ∧ Ev.ret 3 r' ∈ H ∧ Ev.ret 4 r'' ∈ H := by
  obtain ⟨n, h, _⟩ := demoNest
  obtain ⟨n', H', h1, h2⟩ := exists_stuck (C123_shared_ends upwards_depth upwards_finite h) _
  have h3 := h1.exec h
  obtain ⟨r, hr⟩ := C123_shared_returns_partial upwards_ordered h3 h2 (i := 2) (op := .range fun _ _ _ => true) (by simp)
  obtain ⟨r', hr'⟩ := C123_shared_returns_partial upwards_ordered h3 h2 (i := 3) (op := .computeIfAbsent [0, 97] fun _ _ => 7) (by simp)
  obtain ⟨r'', hr''⟩ := C123_shared_returns_partial upwards_ordered h3 h2 (i := 4) (op := .load [98]) (by simp)
  exact ⟨n', _, r, r', r'', h3, h2, hr, hr', hr''⟩

/-- A nested call on a single key. -/
theorem demoNestKey : ∃ n : NCf Nat, NExec (prog two) (fns upwards) n [.inv 3 (.computeIfAbsent [97] fun _ _ => 7), .inv 4 (.load [98]), .ret 4 (.value none)] :=
  (exists_nexec (P := prog two) (F := fns upwards) ([.start 7 3 (.computeIfAbsent [97] fun _ _ => 7)] ++ nruns 7 7 ++ [.nest 7 4] ++ nruns 4 7) _ (fun _ => True)
    (by exact And.intro rfl trivial)).imp fun _ h => h.1

example : Linearizable strictShared [Ev.inv 3 (.computeIfAbsent [97] fun _ _ => 7), .inv 4 (.load [98]), .ret 4 (.value (none : Option Nat))] :=
  demoNestKey.elim fun _ h => C123_shared_linearizable (opts := [2]) (by decide) (by decide) rfl h (by
    intro i op hi
    simp only [List.mem_cons, Ev.inv.injEq, reduceCtorEq, List.not_mem_nil, or_false] at hi
    rcases hi with ⟨_, rfl⟩ | ⟨_, rfl⟩ <;> exact ⟨trivial, by simp⟩)

end Verif.XSync.SharedConc

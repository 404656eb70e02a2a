import Verif.XSync.MapNested
/-!
# C123 for `xsync.Map`: user functions that make calls on the map

`NExec prog (fns U)` are the executions in which the functions given to `Range`, `ComputeIfAbsent` and `ComputeIfPresent` make the calls that
`U` says, at any depth, on any number of goroutines.
-/
namespace Verif.XSync.MapConc
open Verif.Conc Verif.Go

variable {K V : Type} [DecidableEq K] [DecidableEq V]

/-- **C123.** Calls made by user functions are calls like any others: a history with nested calls is a history of calls. So it has the
guarantees that C21, C22, C23 and C85 give for histories, whatever the functions do. -/
theorem C123_map_history {U : Users K V} {n : NConf (G K V) (Op K V) (Res K V) (Pt K V)} {H : List (Ev (Op K V) (Res K V))}
    (h : NExec prog (fns U) n H) : prog.mach.Exec n.m H := h.flat

/-- **C123.** In particular the calls, nested ones included, take effect one after the other, each of them while it runs; and what a `Range`
promises holds of a `Range` whose function changes the map. -/
theorem C123_map_range {U : Users K V} {n : NConf (G K V) (Op K V) (Res K V) (Pt K V)} {H : List (Ev (Op K V) (Res K V))} (h : NExec prog (fns U) n H) :
    ∃ L st, Linearization mapSpec H L st ∧ ∀ i f l all, Ev.inv i (.range f) ∈ H → Ev.ret i (.visited l all) ∈ H →
      (l.map (·.1)).Nodup ∧ (∀ k v, (k, v) ∈ l → ∃ n, During H L i n ∧ st n k = some v) ∧
      (all = true → ∀ k, (∀ n, During H L i n → st n k ≠ none) → ∃ v, (k, v) ∈ l) := C23_range h.flat

/-- **C123.** If every function makes finitely many calls and the depth of the nesting is limited, then no schedule runs on forever, unless
goroutines begin new calls (there may be a deadlock). -/
theorem C123_map_ends {U : Users K V} {rank : Op K V → Nat} (hd : Depth U rank) (hf : Finite U)
    {n : NConf (G K V) (Op K V) (Res K V) (Pt K V)} {H : List (Ev (Op K V) (Res K V))} (h : NExec prog (fns U) n H) : Acc (NMoves prog (fns U)) n :=
  h.ends (finitary hd hf) C115_ends

/-- **C123, the part that holds.** If only functions of `Range` make calls, there is no deadlock: where nothing moves, every call has returned. -/
theorem C123_map_returns_partial {U : Users K V} (hU : RangeOnly U) {n : NConf (G K V) (Op K V) (Res K V) (Pt K V)} {H : List (Ev (Op K V) (Res K V))}
    (h : NExec prog (fns U) n H) (hs : n.Stuck prog (fns U)) {i : Nat} {op : Op K V} (hi : Ev.inv i op ∈ H) : ∃ r, Ev.ret i r ∈ H :=
  h.all_returned (h.no_deadlock (levels hU) hs) hi

/-- **C123.** A function that makes a call on the map while its own call holds the lock never returns, if the call it makes needs the lock. -/
theorem stuck_forever {U : Users K V} {n n' : NConf (G K V) (Op K V) (Res K V) (Pt K V)} {H H' : List (Ev (Op K V) (Res K V))} (h : NExec prog (fns U) n H)
    {t i j : Nat} {tr tr' : List (Op K V × Res K V)} {rest : List (Conc.Frame (Op K V) (Res K V))} {op : Op K V} (hst : n.stack t = (j, tr) :: rest)
    (hm : (i, tr') ∈ rest) (hmu : n.m.g.mu = some i) (hp : n.m.pc j = .at op .lock) (hl : NLeads prog (fns U) n H n' H') (r : Res K V) :
    Ev.ret i r ∉ H' ∧ Ev.ret j r ∉ H' := by
  have := hl.still h (D := fun t' => t' = t) (Q := fun g => g.mu = some i) hmu
    (by
      rintro t' rfl
      exact ⟨j, tr, rest, op, .lock, hst, hp, fns_quiet U op tr rfl, fun g c hg => by simp [prog, step, hg]⟩)
    (by
      intro n₁ H₁ h₁ hS hq l o s c g' x hpl hno hx
      refine mu_stays h₁.flat hq hpl (fun hli => ?_) hx
      subst hli
      exact hno t tr' rfl (by rw [(hS t rfl).1, hst]; exact List.mem_cons_of_mem _ hm))
  obtain ⟨gh, _, _, hI⟩ := simulation h.flat
  obtain ⟨o, s, h1, _⟩ := hI.muIn i hmu
  refine ⟨this.2.not_returned (hl.exec h) rfl (tr := tr') (by rw [hst]; exact List.mem_cons_of_mem _ hm) (fun o' r' hc => ?_) r,
    this.2.not_returned (hl.exec h) rfl (tr := tr) (by rw [hst]; simp) (fun o' r' hc => by rw [hp] at hc; simp at hc) r⟩
  simp [Conf.view, hc, Proc.view] at h1

/-- A function that loads key 1 once. -/
def loadOne : Users Nat Nat := fun op _ _ _ tr => match op, tr with
  | .load _, _ => none
  | _, [] => some (.load 1)
  | _, _ => none

/-- Nesting of depth one. -/
def depthOne : Op Nat Nat → Nat
  | .load _ => 0
  | _ => 1

theorem loadOne_depth : Depth loadOne depthOne := by
  intro op k v n tr op' h
  cases op <;> cases tr <;> simp [loadOne] at h <;> subst h <;> simp [depthOne]

theorem loadOne_finite : Finite loadOne := by
  intro op k v n
  have one : ∀ tr : List (Op Nat Nat × Res Nat Nat), tr ≠ [] →
      Acc (fun tr' tr => ∃ op' r, loadOne op k v n tr = some op' ∧ tr' = tr ++ [(op', r)]) tr := by
    intro tr htr
    refine ⟨_, ?_⟩
    rintro tr' ⟨op', r, h, _⟩
    cases op <;> cases tr <;> simp [loadOne] at h htr
  refine ⟨fun tr => ?_⟩
  by_cases htr : tr = []
  · refine ⟨_, ?_⟩
    rintro tr' ⟨op', r, h, rfl⟩
    exact one _ (by simp)
  · exact one _ htr

/-- For the concrete cases beside the theorems. -/
def nruns (n t : Nat) : List (NMove (Op Nat Nat)) := List.replicate n (.run t 0)

/-- **C123, the refutation.** Calls of the function of `ComputeIfAbsent` do not return: a function that loads another key, once, and then
nothing returns on that goroutine, however the execution continues. -/
theorem C123_computeIfAbsent_refuted : ∃ n H, NExec prog (fns loadOne) n H ∧ H = [.inv 1 (.computeIfAbsent 0 fun _ _ => 5), .inv 2 (.load 1)] ∧
    ∀ n' H', NLeads prog (fns loadOne) n H n' H' → ∀ r, Ev.ret 1 r ∉ H' ∧ Ev.ret 2 r ∉ H' := by
  have : ∃ n : NConf (G Nat Nat) _ _ _, NExec prog (fns loadOne) n [.inv 1 (.computeIfAbsent 0 fun _ _ => 5), .inv 2 (.load 1)] ∧
      n.stack 7 = [(2, []), (1, [])] ∧ n.m.g.mu = some 1 ∧ n.m.pc 2 = .at (.load 1) .lock :=
    exists_nexec ([.start 7 1 (.computeIfAbsent 0 fun _ _ => 5)] ++ nruns 6 7 ++ [.nest 7 2] ++ nruns 1 7) _ _
      (by exact And.intro rfl (And.intro rfl (And.intro rfl rfl)))
  obtain ⟨n, h1, h2, h3, h4⟩ := this
  exact ⟨n, _, h1, rfl, fun n' H' hl r => stuck_forever h1 h2 (List.mem_singleton.mpr rfl) h3 h4 hl r⟩

/-- **C123, the refutation.** Nor do those of the function of `ComputeIfPresent`. -/
theorem C123_computeIfPresent_refuted : ∃ n H, NExec prog (fns loadOne) n H ∧
    H = [.inv 1 (.store 0 5), .ret 1 .unit, .inv 2 (.computeIfPresent 0 fun _ v _ => v + 1), .inv 3 (.load 1)] ∧
    ∀ n' H', NLeads prog (fns loadOne) n H n' H' → ∀ r, Ev.ret 2 r ∉ H' ∧ Ev.ret 3 r ∉ H' := by
  have : ∃ n : NConf (G Nat Nat) _ _ _, NExec prog (fns loadOne) n [.inv 1 (.store 0 5), .ret 1 .unit, .inv 2 (.computeIfPresent 0 fun _ v _ => v + 1),
        .inv 3 (.load 1)] ∧
      n.stack 7 = [(3, []), (2, [])] ∧ n.m.g.mu = some 2 ∧ n.m.pc 3 = .at (.load 1) .lock :=
    exists_nexec ([.start 7 1 (.store 0 5)] ++ nruns 9 7 ++ [.start 7 2 (.computeIfPresent 0 fun _ v _ => v + 1)] ++ nruns 4 7 ++ [.nest 7 3] ++ nruns 1 7) _ _
      (by exact And.intro rfl (And.intro rfl (And.intro rfl rfl)))
  obtain ⟨n, h1, h2, h3, h4⟩ := this
  exact ⟨n, _, h1, rfl, fun n' H' hl r => stuck_forever h1 h2 (List.mem_singleton.mpr rfl) h3 h4 hl r⟩

/-- The function of `Range` stores the next key and loads it again, as often as it is called. -/
def storeNext : Users Nat Nat := fun op k _ _ tr => match op, tr with
  | .range _, [] => some (.store (k + 1) 7)
  | .range _, [_] => some (.load (k + 1))
  | _, _ => none

/-- For the concrete cases beside the theorems. -/
def depthRange : Op Nat Nat → Nat
  | .range _ => 1
  | _ => 0

theorem storeNext_some {op op' : Op Nat Nat} {k n : Nat} {v : Option Nat} {tr : List (Op Nat Nat × Res Nat Nat)} (h : storeNext op k v n tr = some op') :
    (∃ f, op = .range f) ∧ depthRange op' = 0 ∧ tr.length < 2 := by
  cases op <;> simp [storeNext] at h
  match tr, h with
  | [], h => simp [storeNext] at h; subst h; simp [depthRange]
  | [_], h => simp [storeNext] at h; subst h; simp [depthRange]
  | _ :: _ :: _, h => simp [storeNext] at h

theorem storeNext_depth : Depth storeNext depthRange := by
  intro op k v n tr op' h
  obtain ⟨⟨f, rfl⟩, h2, _⟩ := storeNext_some h
  rw [h2]; simp [depthRange]

theorem storeNext_range : RangeOnly storeNext := fun _ _ _ _ _ _ h => (storeNext_some h).1

theorem storeNext_finite : Finite storeNext := by
  intro op k v n
  refine Subrelation.wf (r := InvImage (· < ·) fun tr => 2 - tr.length) ?_ (InvImage.wf _ Nat.lt_wfRel.wf)
  rintro tr' tr ⟨op', r, h, rfl⟩
  have := (storeNext_some h).2.2
  simp only [InvImage, List.length_append, List.length_singleton]
  omega

/-- A `Range` whose function has stored a key and loaded it again; another goroutine has begun a call. -/
theorem demoNest : ∃ n : NConf (G Nat Nat) _ _ _, NExec prog (fns storeNext) n [.inv 1 (.store 0 5), .ret 1 .unit, .inv 2 (.range fun _ _ _ => true),
    .inv 3 (.store 1 7), .ret 3 .unit, .inv 5 (.delete 0), .inv 4 (.load 1), .ret 4 (.value (some 7)), .ret 2 (.visited [(0, 5)] true)] ∧ n.stack 8 = [(5, [])] :=
  exists_nexec ([.start 7 1 (.store 0 5)] ++ nruns 9 7 ++ [.start 7 2 (.range fun _ _ _ => true)] ++ nruns 6 7 ++ [.nest 7 3] ++ nruns 11 7 ++
    [.start 8 5 (.delete 0), .nest 7 4] ++ nruns 10 7) _ _ (by exact And.intro rfl rfl)

example := demoNest.imp fun _ h => C123_map_history h.1

example := demoNest.imp fun _ h => C123_map_range h.1

example := demoNest.imp fun _ h => C123_map_ends storeNext_depth storeNext_finite h.1

/-- From the state of `demoNest` an execution leads to one in which nothing moves, and `Delete` has returned there. -/
example : ∃ n H r, NExec prog (fns storeNext) n H ∧ n.Stuck prog (fns storeNext) ∧ Ev.ret 5 r ∈ H := by
  obtain ⟨n, h, _⟩ := demoNest
  obtain ⟨n', H', h1, h2⟩ := exists_stuck (C123_map_ends storeNext_depth storeNext_finite h) _
  have h3 := h1.exec h
  obtain ⟨r, hr⟩ := C123_map_returns_partial storeNext_range h3 h2 (i := 5) (op := .delete 0) (by simp)
  exact ⟨n', _, r, h3, h2, hr⟩

end Verif.XSync.MapConc

import Verif.XRing.ConcProps
import Verif.Conc.Ends
/-!
# The calls of a ring return under every schedule (C02)
-/
namespace Verif.XRing.Conc
open Verif.Go Verif.Conc

variable {α : Type}

/-- `m'` comes out of `m` by one step of a call that is already running. -/
def Moves (m' m : St α) : Prop := ∃ e i, next m i = some (e, m')

/-- The part of a call that is still to come: its phase, and the iterations left. -/
def rank : PC α → Nat × Nat
  | .idle => (0, 0)
  | .done => (0, 0)
  | .addRet _ _ => (1, 0)
  | .takeRet _ => (1, 0)
  | .addUnlock _ _ => (2, 0)
  | .takeUnlock _ => (2, 0)
  | .addSet _ _ => (3, 0)
  | .takeLoop _ _ cnt _ => (3, cnt)
  | .addLoad _ => (4, 0)
  | .takeMake _ _ => (4, 0)
  | .addStore _ _ => (5, 0)
  | .takeBig => (5, 0)
  | .takeSmall => (5, 0)
  | .addSlot _ => (6, 0)
  | .takeCmp => (6, 0)
  | .addLock _ => (7, 0)
  | .takeLock => (7, 0)

/-- Proof only: the order on the points of a call. -/
def Sinks (p' p : PC α) : Prop := Prod.Lex (· < ·) (· < ·) (rank p') (rank p)

theorem sinks_acc (p : PC α) : Acc Sinks p :=
  (InvImage.wf rank (WellFoundedRelation.wf (α := Nat × Nat))).apply p

theorem sinks_of_lt {p' p : PC α} (h : (rank p').1 < (rank p).1) : Sinks p' p := by
  unfold Sinks
  cases h1 : rank p' with
  | mk a b => cases h2 : rank p with
    | mk c d => rw [h1, h2] at h; exact .left _ _ h

theorem move {m m' : St α} {e : Option (Ev (Call α) (Res α))} {i : Nat} (h : next m i = some (e, m')) :
    m.pc i ≠ .idle ∧ Sinks (m'.pc i) (m.pc i) ∧ ∀ j, j ≠ i → m'.pc j = m.pc j := by
  unfold next at h
  split at h <;> rename_i hp <;> rw [hp] <;> (try dsimp only at h) <;> (repeat' split at h) <;>
    simp only [Option.some.injEq, Prod.mk.injEq, reduceCtorEq] at h <;> obtain ⟨_, rfl⟩ := h <;>
    refine ⟨by simp, ?_, fun j hj' => by simp only [St.goto, upd_ne _ _ hj']⟩ <;> simp only [St.goto, upd_same] <;>
    first
    | exact .right _ (Nat.lt_succ_self _)
    | exact sinks_of_lt (by simp [rank])

theorem finite_calls (r : Ring α) {m : St α} {H : List (Ev (Call α) (Res α))} (h : (machine r).Exec m H) : ∃ n, ∀ i, n ≤ i → m.pc i = .idle := by
  have key : ∀ m l m', (∃ n, ∀ i, n ≤ i → m.pc i = .idle) → (machine r).Step m l m' → ∃ n, ∀ i, n ≤ i → m'.pc i = .idle := by
    rintro m l m' ⟨n, hn⟩ hs
    cases hs with
    | inv i op _ hi =>
      simp only [machine, invoke] at hi
      split at hi
      · simp only [Option.some.injEq] at hi
        subst hi
        refine ⟨max n (i + 1), fun j hj => ?_⟩
        have : j ≠ i := by omega
        simp only [St.goto, upd_ne _ _ this]; exact hn j (by omega)
      · simp at hi
    | run i c _ _ hn' =>
      obtain ⟨h1, _, h3⟩ := move hn'
      refine ⟨n, fun j hj => ?_⟩
      by_cases hji : j = i
      · subst hji; exact absurd (hn j hj) h1
      · rw [h3 j hji]; exact hn j hj
  induction h with
  | init => exact ⟨0, fun _ _ => rfl⟩
  | tau _ hs ih => exact key _ _ _ ih hs
  | ev _ hs ih => exact key _ _ _ ih hs

/-- **C02.** Without new calls every execution ends, whatever the schedule. -/
theorem C02_ends (r : Ring α) {m : St α} {H : List (Ev (Call α) (Res α))} (h : (machine r).Exec m H) : Acc Moves m := by
  obtain ⟨n, hn⟩ := finite_calls r h
  clear h
  have hf := acc_below (R := Sinks) n m.pc fun i _ => sinks_acc _
  generalize hp : m.pc = f at hf
  induction hf generalizing m with
  | intro f _ ih =>
    subst hp
    refine ⟨_, fun m' ⟨e, i, hm⟩ => ?_⟩
    obtain ⟨h1, h2, h3⟩ := move hm
    have hi : i < n := by
      rcases Nat.lt_or_ge i n with h | h
      · exact h
      · exact absurd (hn i h) h1
    exact ih m'.pc ⟨i, hi, h2, h3⟩ (fun j hj => by rw [h3 j (by omega)]; exact hn j hj) rfl

theorem inv_ret (r : Ring α) {m : St α} {H : List (Ev (Call α) (Res α))} (h : (machine r).Exec m H) :
    ∀ i, (m.pc i = .idle → ∀ op, Ev.inv i op ∉ H) ∧ (m.pc i = .done → ∃ res, Ev.ret i res ∈ H) := by
  induction h with
  | init => exact fun i => ⟨fun _ _ h => by simp at h, fun h => by simp [machine, start] at h⟩
  | tau _ hs ih =>
    cases hs with
    | run i c _ _ hn =>
      obtain ⟨h1, h2, h3⟩ := move hn
      intro j
      by_cases hji : j = i
      · subst hji
        simp only [machine] at hn
        unfold next at hn
        split at hn <;> rename_i hp <;> (try dsimp only at hn) <;> (repeat' split at hn) <;>
          simp only [Option.some.injEq, Prod.mk.injEq, reduceCtorEq, false_and] at hn <;> obtain ⟨_, rfl⟩ := hn <;>
          simp only [St.goto, upd_same, reduceCtorEq, false_implies, and_self]
      · rw [h3 j hji]; exact ih j
  | ev _ hs ih =>
    cases hs with
    | inv i op _ hi =>
      simp only [machine, invoke] at hi
      split at hi
      · simp only [Option.some.injEq] at hi
        subst hi
        intro j
        by_cases hji : j = i
        · subst hji
          simp only [St.goto, upd_same]
          cases op <;> simp
        · simp only [St.goto, upd_ne _ _ hji, List.mem_append, List.mem_singleton, Ev.inv.injEq, reduceCtorEq, or_false]
          exact ⟨fun h op' => by rintro (h' | ⟨e, _⟩); exact (ih j).1 h op' h'; exact hji e, (ih j).2⟩
      · simp at hi
    | run i c _ _ hn =>
      obtain ⟨h1, h2, h3⟩ := move hn
      intro j
      by_cases hji : j = i
      · subst hji
        simp only [machine] at hn
        unfold next at hn
        split at hn <;> rename_i hp <;> (try dsimp only at hn) <;> (repeat' split at hn) <;>
          simp only [Option.some.injEq, Prod.mk.injEq, reduceCtorEq, false_and] at hn <;> obtain ⟨rfl, rfl⟩ := hn <;>
          simp only [St.goto, upd_same, reduceCtorEq, false_implies, true_and] <;> exact fun _ => ⟨_, List.mem_append_right _ (List.mem_singleton.mpr rfl)⟩
      · rw [h3 j hji]
        refine ⟨fun h op' hm => ?_, fun h => ((ih j).2 h).imp fun _ h => by simp [h]⟩
        rw [List.mem_append] at hm
        rcases hm with hm | hm
        · exact (ih j).1 h op' hm
        · simp only [List.mem_singleton] at hm
          subst hm
          simp only [machine] at hn
          unfold next at hn
          split at hn <;> (try dsimp only at hn) <;> (repeat' split at hn) <;> simp at hn

/-- **C02.** When nothing can move any more, every call has returned. -/
theorem C02_returns (r : Ring α) {m : St α} {H : List (Ev (Call α) (Res α))} (h : (machine r).Exec m H) (hs : ∀ m', ¬ Moves m' m)
    {i : Nat} {op : Call α} (hi : Ev.inv i op ∈ H) : ∃ res, Ev.ret i res ∈ H := by
  by_cases hd : m.pc i = .done
  · exact (inv_ret r h i).2 hd
  · obtain ⟨j, ⟨e, m'⟩, hj⟩ := C02_progress r h i (fun he => (inv_ret r h i).1 he op hi) hd
    exact absurd ⟨e, j, hj⟩ (hs m')

/-- Two calls under way, from where every schedule ends. -/
example : ∃ m H, (machine (⟨[0, 0], 0⟩ : Ring Nat)).Exec m H ∧ Acc Moves m ∧ ∃ m', Moves m' m := by
  obtain ⟨m, h, h1⟩ := Mach.exists_exec_state (machine (⟨[0, 0], 0⟩ : Ring Nat)) [.inv 1 (.add 7), .run 1, .inv 2 .take]
    [.inv 1 (.add 7), .inv 2 .take] (fun m => m.pc 1 = .addSlot 7) ⟨rfl, rfl⟩
  refine ⟨m, _, h, C02_ends _ h, ?_⟩
  cases hn : next m 1 with
  | none =>
    unfold next at hn
    rw [h1] at hn
    simp only at hn
    split at hn
    · simp at hn
    · split at hn <;> simp at hn
  | some x => exact ⟨x.2, x.1, 1, hn⟩

/-- An `Add` and a `Take` that overlap, until nothing moves. -/
example : ∃ m H, (machine (⟨[0, 0], 0⟩ : Ring Nat)).Exec m H ∧ (∀ m', ¬ Moves m' m) ∧ Ev.inv 2 .take ∈ H ∧ ∃ res, Ev.ret 2 res ∈ H := by
  obtain ⟨m, h, h1⟩ := Mach.exists_exec_state (machine (⟨[0, 0], 0⟩ : Ring Nat))
    [.inv 1 (.add 7), .run 1, .inv 2 .take, .run 1, .run 1, .run 1, .run 1, .run 1, .run 1, .run 2, .run 2, .run 2, .run 2, .run 2, .run 2, .run 2, .run 2]
    [.inv 1 (.add 7), .inv 2 .take, .ret 1 .unit, .ret 2 (.vals [7])] (fun m => ∀ i, m.pc i = .idle ∨ m.pc i = .done) (by
      refine ⟨rfl, fun i => ?_⟩
      by_cases h1 : i = 1
      · subst h1; exact .inr rfl
      · by_cases h2 : i = 2
        · subst h2; exact .inr rfl
        · refine .inl ?_
          change upd _ _ _ i = _
          simp [upd, h1, h2, start, St.goto, machine])
  have hq : ∀ m', ¬ Moves m' m := by
    rintro m' ⟨e, i, hi⟩
    unfold next at hi
    rcases h1 i with h | h <;> rw [h] at hi <;> simp at hi
  exact ⟨m, _, h, hq, by simp, C02_returns _ h hq (by simp : Ev.inv 2 .take ∈ _)⟩

end Verif.XRing.Conc

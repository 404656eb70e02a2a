import Verif.XWorker.BothMade
/-!
# A `Worker` jammed by `deferFunc`s stays so, whatever the functions `run` do (C145)

In the model of `Both.lean`, where `run` and `deferFunc` call `Run`: once all slots are held by `deferFunc`s that wait for the worker, they are held for
ever. This extends C144 to functions `run` that call `Run` themselves and may still be executing as their context was done.
-/
namespace Verif.XWorker
open Verif.Go Verif.XTask

variable {E V : Type}

/-! ## Specification -/

/-- Anything that can happen: `Run` is called from outside, a context becomes done, or the worker and the functions in it go on. -/
inductive AnyB : Both E V → Both E V → Prop where
  | call (n : Both E V) (r d : Body) (ctx : Option E) : n.w.crashed = false → AnyB n (n.start r d ctx)
  | cancel {n n' : Both E V} : CancelsB n n' → AnyB n n'
  | inner {n n' : Both E V} : InnerB n n' → AnyB n n'

/-- What follows a state. -/
inductive OnwardB : Both E V → Both E V → Prop where
  | refl (n : Both E V) : OnwardB n n
  | step {n n' n'' : Both E V} : OnwardB n n' → AnyB n' n'' → OnwardB n n''

/-- `Body.calls` of `Both.lean` says that there is a call of `Run` in the code. -/
theorem body_calls (p : Body) : p.calls ↔ p.given ≠ [] := by
  induction p with
  | ret => simp [Body.calls, Body.given]
  | run r d k _ _ _ => simp [Body.calls, Body.given]
  | wait k ih => exact ih

/-! ## Proofs -/

/-- Proof only: where a call is, as far as the other calls can see it. -/
def Worker.stage (w : Worker E V) (i : Nat) : Option (Option Phase) := (w.jobs[i]?).map Job.stage

theorem finishing_stageB {w : Worker E V} {i : Nat} : w.finishing i ↔ w.stage i = some (some .executing) := by
  unfold Worker.finishing Worker.stage
  rcases w.jobs[i]? with _ | (_ | ⟨_, _, _, ph, _⟩) <;> simp [Job.stage]

theorem waiting_stageB {w : Worker E V} {i : Nat} : w.waiting i ↔ w.stage i = some none := by
  unfold Worker.waiting Worker.stage
  rcases w.jobs[i]? with _ | (_ | ⟨_, _, _, ph, _⟩) <;> simp [Job.stage]

theorem deferred_stageB {w : Worker E V} {i : Nat} : w.deferred i ↔ w.stage i = some (some .after) := by
  unfold Worker.deferred Worker.stage
  rcases w.jobs[i]? with _ | (_ | ⟨_, _, _, ph, _⟩) <;> simp [Job.stage]

theorem stage_setB {w : Worker E V} {i : Nat} {a a' : Job E V} {c : Chan Unit} {x : Bool} (h : w.jobs[i]? = some a) (ha : a'.stage = a.stage) (k : Nat) :
    (⟨c, w.jobs.set i a', x⟩ : Worker E V).stage k = w.stage k := by
  unfold Worker.stage
  by_cases e : i = k
  · subst e
    simp [List.getElem?_set_self (List.getElem?_eq_some_iff.mp h).1, h, ha]
  · simp [List.getElem?_set_ne e]

/-- A `deferFunc` that waits goes on waiting if what it sees of the others is the same. -/
theorem waits_same {n n' : Both E V} {i : Nat} (h : n.Waits i .deferFunc) (hk : ∀ j ∈ n.kids i .deferFunc, j < n.w.jobs.length)
    (hst : ∀ j, j < n.w.jobs.length → n'.w.stage j = n.w.stage j) (hc : n'.code i .deferFunc = n.code i .deferFunc)
    (hd : n'.kids i .deferFunc = n.kids i .deferFunc) : n'.Waits i .deferFunc := by
  obtain ⟨h1, h2⟩ := h
  refine ⟨finishing_stageB.mpr (by rw [hst i (active_lt h1)]; exact finishing_stageB.mp h1), ?_⟩
  rcases h2 with ⟨j, l, h2, h3⟩ | ⟨⟨k, h2⟩, j, h3, h4⟩
  · exact .inl ⟨j, l, by rw [hd, h2], waiting_stageB.mpr (by rw [hst j (hk j (by simp [h2]))]; exact waiting_stageB.mp h3)⟩
  · exact .inr ⟨⟨k, by rw [hc, h2]⟩, j, by rw [hd]; exact h3, fun h => h4 (deferred_stageB.mpr (by rw [← hst j (hk j h3)]; exact deferred_stageB.mp h))⟩

theorem jam_stepB {size : Int} {n n' : Both E V} (h : BReach size n) {l : List Nat} (h1 : l.Nodup) (h2 : (l.length : Int) = size)
    (h3 : ∀ i ∈ l, n.Waits i .deferFunc) (hs : AnyB n n') :
    (∀ i ∈ l, n'.Waits i .deferFunc) ∧ n.w.jobs.length ≤ n'.w.jobs.length ∧ ∀ j, j < n.w.jobs.length → n'.w.stage j = n.w.stage j := by
  have hw := w_inv (C145_worker h)
  have occ : ∀ {ctx0 b d m}, Job.accepted ctx0 b d .executing m ∈ n.w.jobs → (Job.accepted ctx0 b d .executing m).occupies = true := by
    intro ctx0 b d m hj
    obtain ⟨g1, g2, g3, g4⟩ := hw.jobs _ hj
    simp only [Job.occupies]
    split
    · rename_i o ho; exact absurd (g4 o ho) (by simp)
    · rfl
  have hsub : l ⊆ (List.range n.w.jobs.length).filter fun i => (n.w.jobs[i]?).any Job.occupies := by
    intro i hi
    obtain ⟨ctx0, b, d, m, hj⟩ := (h3 i hi).1
    refine List.mem_filter.mpr ⟨List.mem_range.mpr (active_lt (h3 i hi).1), ?_⟩
    rw [hj]
    exact occ (List.mem_of_getElem? hj)
  have hsp := List.subperm_of_subset h1 hsub
  have hcount := C14_slots (C145_worker h)
  have hlen := range_filter Job.occupies n.w.jobs
  have hle := hsp.length_le
  have hocc : ∀ i j, n.w.jobs[i]? = some j → j.occupies = true → i ∈ l := by
    intro i j hj ho
    have hp := hsp.perm_of_length_le (by omega)
    exact hp.mem_iff.mpr (List.mem_filter.mpr ⟨List.mem_range.mpr (List.getElem?_eq_some_iff.mp hj).1, by simp [hj, ho]⟩)
  have hfin : ∀ i, n.active i .deferFunc → n.Waits i .deferFunc := by
    rintro i ⟨ctx0, b, d, m, hj⟩
    exact h3 i (hocc i _ hj (occ (List.mem_of_getElem? hj)))
  have hleave : ∀ (i : Nat) (ctx0 : Option E) (b : Bool) (d : DoSt E V) (ph : Phase) (m : Nat) (o : _), n.w.jobs[i]? = some (Job.accepted ctx0 b d ph m) →
      d.caller = Caller.leave o → ph = Phase.executing := by
    intro i ctx0 b d ph m o hj hl
    obtain ⟨_, _, _, _, hj'⟩ := (h3 i (hocc i _ hj (by simp [Job.occupies, hl]))).1
    rw [hj] at hj'
    simp only [Option.some.injEq, Job.accepted.injEq] at hj'
    exact hj'.2.2.2.1
  have hkids : ∀ i, ∀ j ∈ n.kids i .deferFunc, j < n.w.jobs.length := fun i j hj => ((b_inv h).kids i _ j hj).2
  have same : ∀ {n' : Both E V}, (∀ j, j < n.w.jobs.length → n'.w.stage j = n.w.stage j) → (∀ i ∈ l, n'.code i .deferFunc = n.code i .deferFunc) →
      (∀ i ∈ l, n'.kids i .deferFunc = n.kids i .deferFunc) → n.w.jobs.length ≤ n'.w.jobs.length →
      (∀ i ∈ l, n'.Waits i .deferFunc) ∧ n.w.jobs.length ≤ n'.w.jobs.length ∧ ∀ j, j < n.w.jobs.length → n'.w.stage j = n.w.stage j :=
    fun a b c d => ⟨fun i hi => waits_same (h3 i hi) (hkids i) a (b i hi) (c i hi), d, a⟩
  cases hs with
  | call r d ctx hc =>
    refine same (fun j hj => ?_) (fun i hi => ?_) (fun i hi => ?_) (by simp [Both.start])
    · simp [Worker.stage, Both.start, List.getElem?_append_left hj]
    all_goals
      have := active_lt (h3 i hi).1
      simp only [Both.start, start_at]
      rw [if_neg (by omega)]
  | cancel hs =>
    cases hs with
    | pending i b e hc hj => exact same (fun j _ => stage_setB hj (by rfl) j) (fun _ _ => rfl) (fun _ _ => rfl) (by simp)
    | accepted i ctx0 b d ph m e hc hj hx => exact same (fun j _ => stage_setB hj (by rfl) j) (fun _ _ => rfl) (fun _ _ => rfl) (by simp)
  | inner hs =>
    cases hs with
    | own w' ho =>
      cases ho with
      | accept i ctx b c g1 g2 g3 =>
        exfalso
        have := hw.cap
        have := hw.nonneg
        unfold Chan.send at g3
        split at g3
        · simp at g3
        · split at g3
          · omega
          · simp at g3
      | doOwn i ctx0 b d d' ph m g1 g2 g3 g4 => exact same (fun j _ => stage_setB g2 (by rfl) j) (fun _ _ => rfl) (fun _ _ => rfl) (by simp)
      | deferCall i ctx0 d m o g1 g2 g3 => exact absurd (hleave _ _ _ _ _ _ _ g2 g3) (by simp)
      | deferNil i ctx0 d m o g1 g2 g3 => exact absurd (hleave _ _ _ _ _ _ _ g2 g3) (by simp)
      | release i ctx0 b d d' m c o g1 g2 g3 => exact absurd (hleave _ _ _ _ _ _ _ g2 g3) (by simp)
    | run i s r d k ctx hc hr hn hk =>
      cases s with
      | deferFunc =>
        obtain ⟨_, a | ⟨⟨k', a⟩, _⟩⟩ := hfin i hr
        · exact absurd a hn
        · rw [hk] at a; simp at a
      | run =>
        refine same (fun j hj => ?_) (fun x hx => ?_) (fun x hx => ?_) (by simp [Both.start])
        · simp [Worker.stage, Both.start, List.getElem?_append_left hj]
        all_goals
          have := active_lt (h3 x hx).1
          simp only [Both.start, start_at]
          rw [if_neg (by omega), upd2_ne _ _ (by simp)]
    | wait i s k hc hr hn hk hd =>
      cases s with
      | deferFunc =>
        obtain ⟨_, a | ⟨_, j, a1, a2⟩⟩ := hfin i hr
        · exact absurd a hn
        · exact absurd (hd j a1) a2
      | run => exact same (fun _ _ => rfl) (fun x _ => upd2_ne _ _ (by simp)) (fun _ _ => rfl) (Nat.le_refl _)
    | runReturns i ctx0 b d ph m e hc hj hg hn hk => exact same (fun j _ => stage_setB hj (by rfl) j) (fun _ _ => rfl) (fun _ _ => rfl) (by simp)
    | deferReturns i ctx0 b d m hc hj hn hk =>
      obtain ⟨_, a | ⟨⟨k', a⟩, _⟩⟩ := hfin i ⟨_, _, _, _, hj⟩
      · exact absurd a hn
      · rw [hk] at a; simp at a

/-! ## Theorems -/

/-- **C145.** If all slots are held by `deferFunc`s that wait for the worker, this is so for ever, whatever is called from outside, whatever the functions
`run` do and whichever contexts become done: the `deferFunc`s do not return, and no call of `Run` that waits for a slot, now or later, ever gets one. -/
theorem C145_forever {size : Int} {n n' : Both E V} (h : BReach size n) {l : List Nat} (h1 : l.Nodup) (h2 : (l.length : Int) = size)
    (h3 : ∀ i ∈ l, n.Waits i .deferFunc) (hs : OnwardB n n') :
    (∀ i ∈ l, n'.Waits i .deferFunc) ∧ (∀ i, n.w.waiting i → n'.w.waiting i) ∧ ∀ i, n.w.jobs.length ≤ i → i < n'.w.jobs.length → n'.w.waiting i := by
  suffices BReach size n' ∧ (∀ i ∈ l, n'.Waits i .deferFunc) ∧ n.w.jobs.length ≤ n'.w.jobs.length ∧ (∀ i, n.w.waiting i → n'.w.waiting i) ∧
      ∀ i, n.w.jobs.length ≤ i → i < n'.w.jobs.length → n'.w.waiting i from ⟨this.2.1, this.2.2.2.1, this.2.2.2.2⟩
  induction hs with
  | refl => exact ⟨h, h3, Nat.le_refl _, fun _ h => h, fun i a b => absurd b (by omega)⟩
  | @step n' n'' hs ha ih =>
    obtain ⟨i1, i2, i3, i4, i5⟩ := ih
    obtain ⟨a1, a2, a3⟩ := jam_stepB i1 h1 h2 i2 ha
    have keep : ∀ i, n'.w.waiting i → n''.w.waiting i := by
      intro i hi
      have hlt : i < n'.w.jobs.length := by
        obtain ⟨_, _, hj⟩ := hi
        exact (List.getElem?_eq_some_iff.mp hj).1
      exact waiting_stageB.mpr (by rw [a3 i hlt]; exact waiting_stageB.mp hi)
    have hr : BReach size n'' := by
      cases ha with
      | call r d ctx hc => exact i1.call r d ctx hc
      | cancel hx => exact i1.cancel hx
      | inner hx => exact i1.inner hx
    refine ⟨hr, a1, by omega, fun i hi => keep i (i4 i hi), fun i c1 c2 => ?_⟩
    by_cases c3 : i < n'.w.jobs.length
    · exact keep i (i5 i c1 c3)
    · have start : ∀ (m : Both E V) r d ctx, m.w.jobs.length ≤ i → i < (m.start r d ctx).w.jobs.length → (m.start r d ctx).w.waiting i := by
        intro m r d ctx d1 d2
        simp only [Both.start, List.length_append, List.length_singleton] at d2
        have e : i = m.w.jobs.length := by omega
        subst e
        exact ⟨ctx, false, by simp [Both.start]⟩
      cases ha with
      | call r d ctx hc => exact start n' r d ctx (by omega) c2
      | cancel hx => exact absurd c2 (by cases hx <;> simpa using c3)
      | inner hx =>
        cases hx with
        | own w' ho => exact absurd c2 (by simpa [length_own ho] using c3)
        | run j s r d k ctx hc hr hn hk =>
          exact start { n' with code := upd2 n'.code j s k, kids := upd2 n'.kids j s (n'.w.jobs.length :: n'.kids j s) } r d ctx (by simpa using c3) c2
        | _ => exact absurd c2 (by simpa using c3)

/-! ## Examples -/

/-- On a worker of size 1 `run` is still executing as its context became done, and `deferFunc` of the same call is inside a call of `Run`. -/
def jamB : Both Nat Nat :=
  ⟨⟨⟨[()], 1, false⟩, [.accepted none false ⟨some 7, Chan.make 1, Chan.make 1, .leave (.err 7), .running, 0, true⟩ .executing 1, .pending none false], false⟩,
    upd2 (upd2 (fun _ _ => .ret) 0 .run (.run .ret .ret .ret)) 0 .deferFunc (.run .ret .ret .ret), upd2 (fun _ _ => .ret) 0 .run (.run .ret .ret .ret),
    upd2 (fun _ _ => []) 0 .deferFunc [1]⟩

theorem demoJamB : BReach 1 jamB := by
  have h0 : BReach 1 (⟨⟨Chan.make 1, [], false⟩, fun _ _ => .ret, fun _ _ => .ret, fun _ _ => []⟩ : Both Nat Nat) := .init rfl
  have g1 := h0.call (.run .ret .ret .ret) (.run .ret .ret .ret) none rfl
  have g2 := g1.inner (.own _ _ (.accept _ 0 none false _ rfl rfl rfl))
  have g3 := g2.inner (.own _ _ (.doOwn _ 0 none false _ _ .before 0 rfl rfl ⟨.entryGo _ rfl rfl, rfl, id⟩ (by simp)))
  have g4 := g3.inner (.own _ _ (.doOwn _ 0 none false _ _ .before 0 rfl rfl ⟨.spawn _ rfl, rfl, fun _ => rfl⟩ (by simp)))
  have h1 := g4.cancel (.accepted _ 0 none false _ .before 0 7 rfl rfl rfl)
  have h3 := h1.inner (.own _ _ (.doOwn _ 0 none false _ _ .before 0 rfl rfl ⟨.recvCtx _ 7 rfl rfl, rfl, id⟩ (by simp)))
  have h4 := h3.inner (.own _ _ (.deferCall _ 0 none _ 0 _ rfl rfl rfl))
  have h5 := h4.inner (.run _ 0 .deferFunc .ret .ret .ret none rfl ⟨_, _, _, _, rfl⟩ (by rintro ⟨j, l, e, _⟩; exact absurd e (by simp [upd2, Both.start])) rfl)
  refine cast (congrArg _ ?_) h5
  simp only [jamB, Both.start, Both.mk.injEq]
  refine ⟨rfl, ?_, ?_, ?_⟩ <;> (funext i s; rcases i with _ | _ | i <;> cases s <;> rfl)

example : jamB.active 0 .run := ⟨_, _, _, _, _, rfl, rfl⟩
/-- The next call from outside waits. -/
example (r d : Body) (ctx : Option Nat) : (jamB.start r d ctx).w.waiting 2 :=
  (C145_forever demoJamB (l := [0]) (by simp) rfl (fun i hi => by
    obtain rfl := List.mem_singleton.mp hi
    exact ⟨⟨_, _, _, _, rfl⟩, .inl ⟨1, [], rfl, _, _, rfl⟩⟩) (.step (.refl _) (.call _ r d ctx rfl))).2.2 2 (Nat.le_refl _) (Nat.lt_succ_self 2)

end Verif.XWorker

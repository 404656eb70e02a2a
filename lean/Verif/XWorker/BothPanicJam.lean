import Verif.XWorker.BothPanic
import Verif.XWorker.BothJam
/-!
# A `Worker` jammed by `deferFunc`s stays so, and panics do not end the program any more (C146)

The theorem of `BothJam.lean` for functions that may panic. When `Do` raises a panic of `run` again its deferred `deferFunc` runs before the program ends (xworker.go:43-46,
xtask/do.go:29-31, 53-54), so a `deferFunc` that waits for the worker holds the panic back.
-/
namespace Verif.XWorker
open Verif.Go Verif.XTask

variable {E V : Type}

/-! ## Specification -/

/-- Anything that can happen: `Run` is called from outside, a context becomes done, or the worker and the functions in it go on. -/
inductive AnyP : PBoth E V → PBoth E V → Prop where
  | call (n : PBoth E V) (r d : PBody) (ctx : Option E) : n.w.crashed = false → AnyP n (n.start r d ctx)
  | cancel {n n' : PBoth E V} : CancelsP n n' → AnyP n n'
  | inner {n n' : PBoth E V} : InnerP n n' → AnyP n n'

/-- What follows a state. -/
inductive OnwardP : PBoth E V → PBoth E V → Prop where
  | refl (n : PBoth E V) : OnwardP n n
  | step {n n' n'' : PBoth E V} : OnwardP n n' → AnyP n' n'' → OnwardP n n''

/-! ## Proofs -/

/-- A `deferFunc` that waits goes on waiting if what it sees of the others is the same. -/
theorem waitsP_same {n n' : PBoth E V} {i : Nat} (h : n.Waits i .deferFunc) (hk : ∀ j ∈ n.kids i .deferFunc, j < n.w.jobs.length)
    (hst : ∀ j, j < n.w.jobs.length → n'.w.stage j = n.w.stage j) (hc : n'.code i .deferFunc = n.code i .deferFunc)
    (hd : n'.kids i .deferFunc = n.kids i .deferFunc) : n'.Waits i .deferFunc := by
  obtain ⟨h1, h2⟩ := h
  refine ⟨finishing_stageB.mpr (by rw [hst i (activeP_lt h1)]; exact finishing_stageB.mp h1), ?_⟩
  rcases h2 with ⟨j, l, h2, h3⟩ | ⟨⟨k, h2⟩, j, h3, h4⟩
  · exact .inl ⟨j, l, by rw [hd, h2], waiting_stageB.mpr (by rw [hst j (hk j (by simp [h2]))]; exact waiting_stageB.mp h3)⟩
  · exact .inr ⟨⟨k, by rw [hc, h2]⟩, j, by rw [hd]; exact h3, fun h => h4 (deferred_stageB.mpr (by rw [← hst j (hk j h3)]; exact deferred_stageB.mp h))⟩

theorem jam_stepP {size : Int} {n n' : PBoth E V} (h : PReach size n) {l : List Nat} (h1 : l.Nodup) (h2 : (l.length : Int) = size)
    (h3 : ∀ i ∈ l, n.Waits i .deferFunc) (hs : AnyP n n') :
    (∀ i ∈ l, n'.Waits i .deferFunc) ∧ n.w.jobs.length ≤ n'.w.jobs.length ∧ (∀ j, j < n.w.jobs.length → n'.w.stage j = n.w.stage j) ∧ n'.w.crashed = n.w.crashed := by
  have hw := w_inv (C146_worker h)
  have occ : ∀ {ctx0 b d m}, Job.accepted ctx0 b d .executing m ∈ n.w.jobs → (Job.accepted ctx0 b d .executing m).occupies = true := by
    intro ctx0 b d m hj
    obtain ⟨g1, g2, g3, g4⟩ := hw.jobs _ hj
    simp only [Job.occupies]
    split
    · rename_i o ho; exact absurd (g4 o ho) (by simp)
    · rfl
  have hsub : l ⊆ (List.range n.w.jobs.length).filter fun i => (n.w.jobs[i]?).any Job.occupies := by
    intro i hi
    obtain ⟨ctx0, b, d, m, hj⟩ := (h3 i hi).1
    refine List.mem_filter.mpr ⟨List.mem_range.mpr (activeP_lt (h3 i hi).1), ?_⟩
    rw [hj]
    exact occ (List.mem_of_getElem? hj)
  have hsp := List.subperm_of_subset h1 hsub
  have hcount := C14_slots (C146_worker h)
  have hlen := range_filter Job.occupies n.w.jobs
  have hle := hsp.length_le
  have hocc : ∀ i j, n.w.jobs[i]? = some j → j.occupies = true → i ∈ l := by
    intro i j hj ho
    have hp := hsp.perm_of_length_le (by omega)
    exact hp.mem_iff.mpr (List.mem_filter.mpr ⟨List.mem_range.mpr (List.getElem?_eq_some_iff.mp hj).1, by simp [hj, ho]⟩)
  have hfin : ∀ i, n.active i .deferFunc → n.Waits i .deferFunc := by
    rintro i ⟨ctx0, b, d, m, hj⟩
    exact h3 i (hocc i _ hj (occ (List.mem_of_getElem? hj)))
  have hleave : ∀ (i : Nat) (ctx0 : Option E) (b : Bool) (d : DoSt E V) (ph : Phase) (m : Nat) (o : _), n.w.jobs[i]? = some (Job.accepted ctx0 b d ph m) →
      d.caller = Caller.leave o → ph = Phase.executing := by
    intro i ctx0 b d ph m o hj hl
    obtain ⟨_, _, _, _, hj'⟩ := (h3 i (hocc i _ hj (by simp [Job.occupies, hl]))).1
    rw [hj] at hj'
    simp only [Option.some.injEq, Job.accepted.injEq] at hj'
    exact hj'.2.2.2.1
  have hkids : ∀ i, ∀ j ∈ n.kids i .deferFunc, j < n.w.jobs.length := fun i j hj => ((p_inv h).kids i _ j hj).2
  have same : ∀ {n' : PBoth E V}, (∀ j, j < n.w.jobs.length → n'.w.stage j = n.w.stage j) → (∀ i ∈ l, n'.code i .deferFunc = n.code i .deferFunc) →
      (∀ i ∈ l, n'.kids i .deferFunc = n.kids i .deferFunc) → n.w.jobs.length ≤ n'.w.jobs.length → n'.w.crashed = n.w.crashed →
      (∀ i ∈ l, n'.Waits i .deferFunc) ∧ n.w.jobs.length ≤ n'.w.jobs.length ∧ (∀ j, j < n.w.jobs.length → n'.w.stage j = n.w.stage j) ∧ n'.w.crashed = n.w.crashed :=
    fun a b c d e => ⟨fun i hi => waitsP_same (h3 i hi) (hkids i) a (b i hi) (c i hi), d, a, e⟩
  cases hs with
  | call r d ctx hc =>
    refine same (fun j hj => ?_) (fun i hi => ?_) (fun i hi => ?_) (by simp [PBoth.start]) rfl
    · simp [Worker.stage, PBoth.start, List.getElem?_append_left hj]
    all_goals
      have := activeP_lt (h3 i hi).1
      simp only [PBoth.start, start_at]
      rw [if_neg (by omega)]
  | cancel hs =>
    cases hs with
    | pending i b e hc hj => exact same (fun j _ => stage_setB hj (by rfl) j) (fun _ _ => rfl) (fun _ _ => rfl) (by simp) rfl
    | accepted i ctx0 b d ph m e hc hj hx => exact same (fun j _ => stage_setB hj (by rfl) j) (fun _ _ => rfl) (fun _ _ => rfl) (by simp) rfl
  | inner hs =>
    cases hs with
    | own w' ho =>
      cases ho with
      | accept i ctx b c g1 g2 g3 =>
        exfalso
        have := hw.cap
        have := hw.nonneg
        unfold Chan.send at g3
        split at g3
        · simp at g3
        · split at g3
          · omega
          · simp at g3
      | doOwn i ctx0 b d d' ph m g1 g2 g3 g4 => exact same (fun j _ => stage_setB g2 (by rfl) j) (fun _ _ => rfl) (fun _ _ => rfl) (by simp) rfl
      | deferCall i ctx0 d m o g1 g2 g3 => exact absurd (hleave _ _ _ _ _ _ _ g2 g3) (by simp)
      | deferNil i ctx0 d m o g1 g2 g3 => exact absurd (hleave _ _ _ _ _ _ _ g2 g3) (by simp)
      | release i ctx0 b d d' m c o g1 g2 g3 => exact absurd (hleave _ _ _ _ _ _ _ g2 g3) (by simp)
    | run i s r d k ctx hc hr hn hk =>
      cases s with
      | deferFunc =>
        obtain ⟨_, a | ⟨⟨k', a⟩, _⟩⟩ := hfin i hr
        · exact absurd a hn
        · rw [hk] at a; simp at a
      | run =>
        refine same (fun j hj => ?_) (fun x hx => ?_) (fun x hx => ?_) (by simp [PBoth.start]) rfl
        · simp [Worker.stage, PBoth.start, List.getElem?_append_left hj]
        all_goals
          have := activeP_lt (h3 x hx).1
          simp only [PBoth.start, start_at]
          rw [if_neg (by omega), upd2_ne _ _ (by simp)]
    | wait i s k hc hr hn hk hd =>
      cases s with
      | deferFunc =>
        obtain ⟨_, a | ⟨_, j, a1, a2⟩⟩ := hfin i hr
        · exact absurd a hn
        · exact absurd (hd j a1) a2
      | run => exact same (fun _ _ => rfl) (fun x _ => upd2_ne _ _ (by simp)) (fun _ _ => rfl) (Nat.le_refl _) rfl
    | runReturns i ctx0 b d ph m e hc hj hg hn hk => exact same (fun j _ => stage_setB hj (by rfl) j) (fun _ _ => rfl) (fun _ _ => rfl) (by simp) rfl
    | deferReturns i ctx0 b d m hc hj hn hk =>
      obtain ⟨_, a | ⟨⟨k', a⟩, _⟩⟩ := hfin i ⟨_, _, _, _, hj⟩
      · exact absurd a hn
      · rw [hk] at a; simp at a
    | runPanics i ctx0 b d ph m v hc hj hg hn hk => exact same (fun j _ => stage_setB hj (by rfl) j) (fun _ _ => rfl) (fun _ _ => rfl) (by simp) rfl
    | deferPanics i ctx0 b d m hc hj hn hk =>
      obtain ⟨_, a | ⟨⟨k', a⟩, _⟩⟩ := hfin i ⟨_, _, _, _, hj⟩
      · exact absurd a hn
      · rw [hk] at a; simp at a

/-! ## Theorems -/

/-- **C146.** If all slots are held by `deferFunc`s that wait for the worker, this is so for ever, whatever is called from outside, whatever the functions
`run` do and whichever contexts become done: the `deferFunc`s do not return, no call of `Run` that waits for a slot,
now or later, ever gets one, and no panic, not even one that `Do` has received already, ends the program. -/
theorem C146_forever {size : Int} {n n' : PBoth E V} (h : PReach size n) {l : List Nat} (h1 : l.Nodup) (h2 : (l.length : Int) = size)
    (h3 : ∀ i ∈ l, n.Waits i .deferFunc) (hs : OnwardP n n') :
    (∀ i ∈ l, n'.Waits i .deferFunc) ∧ (∀ i, n.w.waiting i → n'.w.waiting i) ∧ (∀ i, n.w.jobs.length ≤ i → i < n'.w.jobs.length → n'.w.waiting i) ∧
    n'.w.crashed = n.w.crashed := by
  suffices PReach size n' ∧ (∀ i ∈ l, n'.Waits i .deferFunc) ∧ n.w.jobs.length ≤ n'.w.jobs.length ∧ (∀ i, n.w.waiting i → n'.w.waiting i) ∧
      (∀ i, n.w.jobs.length ≤ i → i < n'.w.jobs.length → n'.w.waiting i) ∧ n'.w.crashed = n.w.crashed from
    ⟨this.2.1, this.2.2.2.1, this.2.2.2.2.1, this.2.2.2.2.2⟩
  induction hs with
  | refl => exact ⟨h, h3, Nat.le_refl _, fun _ h => h, fun i a b => absurd b (by omega), rfl⟩
  | @step n' n'' hs ha ih =>
    obtain ⟨i1, i2, i3, i4, i5, i6⟩ := ih
    obtain ⟨a1, a2, a3, a4⟩ := jam_stepP i1 h1 h2 i2 ha
    have keep : ∀ i, n'.w.waiting i → n''.w.waiting i := by
      intro i hi
      have hlt : i < n'.w.jobs.length := by
        obtain ⟨_, _, hj⟩ := hi
        exact (List.getElem?_eq_some_iff.mp hj).1
      exact waiting_stageB.mpr (by rw [a3 i hlt]; exact waiting_stageB.mp hi)
    have hr : PReach size n'' := by
      cases ha with
      | call r d ctx hc => exact i1.call r d ctx hc
      | cancel hx => exact i1.cancel hx
      | inner hx => exact i1.inner hx
    refine ⟨hr, a1, by omega, fun i hi => keep i (i4 i hi), fun i c1 c2 => ?_, a4.trans i6⟩
    by_cases c3 : i < n'.w.jobs.length
    · exact keep i (i5 i c1 c3)
    · have start : ∀ (m : PBoth E V) r d ctx, m.w.jobs.length ≤ i → i < (m.start r d ctx).w.jobs.length → (m.start r d ctx).w.waiting i := by
        intro m r d ctx d1 d2
        simp only [PBoth.start, List.length_append, List.length_singleton] at d2
        have e : i = m.w.jobs.length := by omega
        subst e
        exact ⟨ctx, false, by simp [PBoth.start]⟩
      cases ha with
      | call r d ctx hc => exact start n' r d ctx (by omega) c2
      | cancel hx => exact absurd c2 (by cases hx <;> simpa using c3)
      | inner hx =>
        cases hx with
        | own w' ho => exact absurd c2 (by simpa [length_own ho] using c3)
        | run j s r d k ctx hc hr hn hk =>
          exact start { n' with code := upd2 n'.code j s k, kids := upd2 n'.kids j s (n'.w.jobs.length :: n'.kids j s) } r d ctx (by simpa using c3) c2
        | _ => exact absurd c2 (by simpa using c3)

/-! ## Examples -/

/-- On a worker of size 1 `run` has panicked and `Do` has received the panic; `deferFunc`, which runs before the panic ends the program, is inside a call of
`Run`. -/
def jamP : PBoth Nat Nat :=
  ⟨⟨⟨[()], 1, false⟩, [.accepted none false ⟨none, Chan.make 1, Chan.make 1, .leave (.panic 4), .ended (.panicked 4), 0, true⟩ .executing 1, .pending none false], false⟩,
    upd2 (upd2 (fun _ _ => .ret) 0 .run .panic) 0 .deferFunc (.run .ret .ret .ret), upd2 (fun _ _ => .ret) 0 .run .panic, upd2 (fun _ _ => []) 0 .deferFunc [1]⟩

theorem demoJamP : PReach 1 jamP := by
  have h0 : PReach 1 (⟨⟨Chan.make 1, [], false⟩, fun _ _ => .ret, fun _ _ => .ret, fun _ _ => []⟩ : PBoth Nat Nat) := .init rfl
  have g1 := h0.call .panic (.run .ret .ret .ret) none rfl
  have g2 := g1.inner (.own _ _ (.accept _ 0 none false _ rfl rfl rfl))
  have g3 := g2.inner (.own _ _ (.doOwn _ 0 none false _ _ .before 0 rfl rfl ⟨.entryGo _ rfl rfl, rfl, id⟩ (by simp)))
  have g4 := g3.inner (.own _ _ (.doOwn _ 0 none false _ _ .before 0 rfl rfl ⟨.spawn _ rfl, rfl, fun _ => rfl⟩ (by simp)))
  have h1 := g4.inner (.runPanics _ 0 none false _ .before 0 4 rfl rfl rfl (not_inRunP fun ctx b hm => by simp [PBoth.start] at hm) rfl)
  have h2 := h1.inner (.own _ _ (.doOwn _ 0 none false _ _ .before 0 rfl rfl ⟨.deliverPanic _ 4 _ rfl rfl, rfl, fun h => by simp at h⟩ (by simp)))
  have h3 := h2.inner (.own _ _ (.doOwn _ 0 none false _ _ .before 0 rfl rfl ⟨.recvPanic _ 4 _ rfl rfl, rfl, id⟩ (by simp)))
  have h4 := h3.inner (.own _ _ (.deferCall _ 0 none _ 0 _ rfl rfl rfl))
  have h5 := h4.inner (.run _ 0 .deferFunc .ret .ret .ret none rfl ⟨_, _, _, _, rfl⟩ (by rintro ⟨j, l, e, _⟩; exact absurd e (by simp [upd2, PBoth.start])) rfl)
  refine cast (congrArg _ ?_) h5
  simp only [jamP, PBoth.start, PBoth.mk.injEq]
  refine ⟨rfl, ?_, ?_, ?_⟩ <;> (funext i s; rcases i with _ | _ | i <;> cases s <;> rfl)

theorem jamP_waits : ∀ i ∈ [0], jamP.Waits i .deferFunc := fun i hi => by
  obtain rfl := List.mem_singleton.mp hi
  exact ⟨⟨_, _, _, _, rfl⟩, .inl ⟨1, [], rfl, _, _, rfl⟩⟩

/-- **C146.** A panic of `run` that `Do` has received, with a context that is not done, may never end the program: `deferFunc` runs before and, if it
calls `Run` while the worker is full, does not return. -/
theorem C146_held : ∃ n : PBoth Nat Nat, PReach 1 n ∧ (∃ b d m, n.w.jobs[0]? = some (.accepted none b d .executing m) ∧ d.ctx = none ∧ d.caller = .leave (.panic 4)) ∧
    ∀ n', OnwardP n n' → n'.w.crashed = false :=
  ⟨jamP, demoJamP, ⟨_, _, _, rfl, rfl, rfl⟩, fun _ h => (C146_forever demoJamP (l := [0]) (by simp) rfl jamP_waits h).2.2.2⟩

/-- The next call from outside waits. -/
example (r d : PBody) (ctx : Option Nat) : (jamP.start r d ctx).w.waiting 2 :=
  (C146_forever demoJamP (l := [0]) (by simp) rfl jamP_waits (.step (.refl _) (.call _ r d ctx rfl))).2.2.1 2 (Nat.le_refl _) (Nat.lt_succ_self 2)

end Verif.XWorker

import Verif.XWorker.BothPanic
/-!
# A function does nothing else while it is inside a call of `Run` (C145, C146)

`Run` returns to the function that called it only when the call has got a slot (xworker.go:36-37). So as long as one of the calls of `Run` made by a function
waits, the function is executing, this call is the last one it has made, and it has not returned or panicked.
-/
namespace Verif.XWorker
open Verif.Go Verif.XTask

variable {E V : Type}

/-! ## Proofs -/

/-- Proof only: the function given to the call is executing. -/
def Job.goes : Job E V → Part → Prop
  | .pending _ _, _ => False
  | .accepted _ _ d _ _, .run => d.gor = .running
  | .accepted _ _ _ ph _, .deferFunc => ph = .executing

theorem active_goes {n : PBoth E V} {i : Nat} {s : Part} : n.active i s ↔ ∃ j, n.w.jobs[i]? = some j ∧ j.goes s := by
  constructor
  · intro h
    cases s with
    | run => obtain ⟨_, _, _, _, _, hj, hg⟩ := h; exact ⟨_, hj, hg⟩
    | deferFunc => obtain ⟨_, _, _, _, hj⟩ := h; exact ⟨_, hj, rfl⟩
  · rintro ⟨j, hj, hg⟩
    cases j with
    | pending ctx b => exact absurd hg (by simp [Job.goes])
    | accepted ctx0 b d ph m =>
      cases s with
      | run => exact ⟨_, _, _, _, _, hj, hg⟩
      | deferFunc => simp only [Job.goes] at hg; subst hg; exact ⟨_, _, _, _, hj⟩

/-- Proof only: the invariant. -/
def Inside (n : PBoth E V) : Prop := ∀ i s j, j ∈ n.kids i s → n.w.waiting j → n.active i s ∧ ∃ l, n.kids i s = j :: l

/-- One job changes; a function that is inside a call of `Run` goes on. -/
theorem Inside.set {n : PBoth E V} (h : Inside n) {w' : Worker E V} {k : Nat} {old a : Job E V} (hk : n.w.jobs[k]? = some old) (hj : w'.jobs = n.w.jobs.set k a)
    (hp : ∀ c b, a = .pending c b → ∃ c b, old = .pending c b) (ha : ∀ s, n.inRun k s → old.goes s → a.goes s) : Inside { n with w := w' } := by
  have hlt : k < n.w.jobs.length := (List.getElem?_eq_some_iff.mp hk).1
  intro i s j hm hw
  have hw0 : n.w.waiting j := by
    obtain ⟨c, b, hx⟩ := hw
    simp only [hj] at hx
    by_cases e : k = j
    · subst e
      rw [List.getElem?_set_self hlt, Option.some.injEq] at hx
      obtain ⟨c', b', rfl⟩ := hp _ _ hx
      exact ⟨_, _, hk⟩
    · rw [List.getElem?_set_ne e] at hx
      exact ⟨_, _, hx⟩
  obtain ⟨h1, l, h2⟩ := h i s j hm hw0
  refine ⟨active_goes.mpr ?_, l, h2⟩
  obtain ⟨x, hx, hg⟩ := active_goes.mp h1
  simp only [hj]
  by_cases e : k = i
  · subst e
    rw [hk, Option.some.injEq] at hx
    subst hx
    exact ⟨a, List.getElem?_set_self hlt, ha s ⟨j, l, h2, hw0⟩ hg⟩
  · exact ⟨x, by rw [List.getElem?_set_ne e]; exact hx, hg⟩

/-- A new call of `Run`. -/
theorem Inside.start {n : PBoth E V} (r d : PBody) (ctx : Option E) (hk : ∀ i s, ∀ j ∈ n.kids i s, i < j ∧ j < n.w.jobs.length + 1)
    (hl : ∀ i s, n.w.jobs.length ∈ n.kids i s → n.active i s ∧ ∃ l, n.kids i s = n.w.jobs.length :: l) (h : Inside n) : Inside (n.start r d ctx) := by
  intro i s j hm hw
  have e : i ≠ n.w.jobs.length := by
    rintro rfl
    simp only [PBoth.start, start_at, if_true] at hm
    cases s <;> simp at hm
  have hkid : (n.start r d ctx).kids i s = n.kids i s := by simp only [PBoth.start, start_at, if_neg e]
  rw [hkid] at hm ⊢
  have key : n.active i s ∧ ∃ l, n.kids i s = j :: l := by
    by_cases ej : j = n.w.jobs.length
    · subst ej; exact hl i s hm
    · refine h i s j hm ?_
      obtain ⟨c, b, hx⟩ := hw
      have hlt := (hk i s j hm).2
      simp only [PBoth.start] at hx
      rw [List.getElem?_append_left (by omega)] at hx
      exact ⟨c, b, hx⟩
  refine ⟨active_goes.mpr ?_, key.2⟩
  obtain ⟨x, hx, hg⟩ := active_goes.mp key.1
  exact ⟨x, by simp only [PBoth.start]; rw [List.getElem?_append_left (List.getElem?_eq_some_iff.mp hx).1]; exact hx, hg⟩

theorem inside {size : Int} {n : PBoth E V} (h : PReach size n) : Inside n := by
  induction h with
  | init hw => intro i s j hm; simp at hm
  | @call n r d ctx h hc ih =>
    have hk := (p_inv h).kids
    exact Inside.start r d ctx (fun i s j hj => by have := hk i s j hj; omega) (fun i s hj => by have := hk i s _ hj; omega) ih
  | @cancel n _ h hs ih =>
    cases hs with
    | pending i b e hc hj => exact ih.set hj rfl (fun c b h => ⟨_, _, rfl⟩) fun s _ hg => by cases s <;> exact hg
    | accepted i ctx0 b d ph m e hc hj hx => exact ih.set hj rfl (fun c b h => by simp at h) fun s _ hg => by cases s <;> exact hg
  | @inner n _ h hs ih =>
    have hk := (p_inv h).kids
    cases hs with
    | own w' ho =>
      cases ho with
      | accept i ctx b c h1 h2 h3 => exact ih.set h2 rfl (fun c b h => by simp at h) fun s _ hg => absurd hg (by simp [Job.goes])
      | doOwn i ctx0 b d d' ph m h1 h2 h3 h4 =>
        exact ih.set h2 rfl (fun c b h => by simp at h) fun s _ hg => by
          cases s with
          | run => exact h3.2.2 hg
          | deferFunc => exact hg
      | deferCall i ctx0 d m o h1 h2 h3 =>
        exact ih.set h2 rfl (fun c b h => by simp at h) fun s _ hg => by
          cases s with
          | run => exact hg
          | deferFunc => rfl
      | deferNil i ctx0 d m o h1 h2 h3 =>
        exact ih.set h2 rfl (fun c b h => by simp at h) fun s _ hg => by
          cases s with
          | run => exact hg
          | deferFunc => simp [Job.goes] at hg
      | release i ctx0 b d d' m c o h1 h2 h3 h4 h5 h6 =>
        exact ih.set h2 rfl (fun c b h => by simp at h) fun s _ hg => by
          cases s with
          | run => simp only [Job.goes] at hg ⊢; cases h5 <;> simp_all
          | deferFunc => exact hg
    | run i s r d k ctx hc hr hn hk' =>
      have old : ∀ x t, n.w.jobs.length ∉ n.kids x t := fun x t hm => by have := (hk x t _ hm).2; omega
      have act : ∀ {x t}, n.active x t →
          ({ n with code := upd2 n.code i s k, kids := upd2 n.kids i s (n.w.jobs.length :: n.kids i s) } : PBoth E V).active x t := fun {x t} ha => by
        cases t <;> exact ha
      refine Inside.start (n := { n with code := upd2 n.code i s k, kids := upd2 n.kids i s (n.w.jobs.length :: n.kids i s) }) r d ctx
        (fun x t j hj => ?_) (fun x t hj => ?_) (fun x t j hj hw => ?_)
      · simp only [upd2] at hj
        split at hj
        · rename_i e
          rcases List.mem_cons.mp hj with rfl | hj
          · exact ⟨e.1 ▸ activeP_lt hr, Nat.lt_succ_self _⟩
          · have := hk i s j hj; exact ⟨by omega, by simp only; omega⟩
        · have := hk x t j hj; exact ⟨by omega, by simp only; omega⟩
      · by_cases e : x = i ∧ t = s
        · obtain ⟨rfl, rfl⟩ := e
          exact ⟨act hr, _, upd2_self _ _ _ _⟩
        · simp only [upd2_ne _ _ e] at hj
          exact absurd hj (old x t)
      · by_cases e : x = i ∧ t = s
        · obtain ⟨rfl, rfl⟩ := e
          simp only [upd2_self] at hj
          rcases List.mem_cons.mp hj with rfl | hj
          · exact ⟨act hr, _, upd2_self _ _ _ _⟩
          · obtain ⟨_, l, hl⟩ := ih x t j hj hw
            exact absurd ⟨j, l, hl, hw⟩ hn
        · simp only [upd2_ne _ _ e] at hj ⊢
          obtain ⟨h1, h2⟩ := ih x t j hj hw
          exact ⟨act h1, h2⟩
    | wait i s k hc hr hn hk' hd =>
      intro x t j hj hw
      obtain ⟨h1, h2⟩ := ih x t j hj hw
      exact ⟨by cases t <;> exact h1, h2⟩
    | runReturns i ctx0 b d ph m e hc hj hg hn hk' =>
      exact ih.set hj rfl (fun c b h => by simp at h) fun s hi hg => by
        cases s with
        | run => exact absurd hi hn
        | deferFunc => exact hg
    | deferReturns i ctx0 b d m hc hj hn hk' =>
      exact ih.set hj rfl (fun c b h => by simp at h) fun s hi hg => by
        cases s with
        | run => exact hg
        | deferFunc => exact absurd hi hn
    | runPanics i ctx0 b d ph m v hc hj hg hn hk' =>
      exact ih.set hj rfl (fun c b h => by simp at h) fun s hi hg => by
        cases s with
        | run => exact absurd hi hn
        | deferFunc => exact hg
    | deferPanics i ctx0 b d m hc hj hn hk' =>
      exact ih.set hj rfl (fun c b h => by simp at h) fun s hi hg => by
        cases s with
        | run => exact hg
        | deferFunc => exact absurd hi hn

/-! ## Theorems -/

/-- **C146.** If a call of `Run` made by a function waits, the function is executing – it has not returned or panicked – and has made no call after this one. -/
theorem C146_inside {size : Int} {n : PBoth E V} (h : PReach size n) {i j : Nat} {s : Part} (hj : j ∈ n.kids i s) (hw : n.w.waiting j) :
    n.active i s ∧ ∃ l, n.kids i s = j :: l :=
  inside h i s j hj hw

/-- **C146.** When a function has returned or panicked, all calls of `Run` it has made have got their slots. -/
theorem C146_taken {size : Int} {n : PBoth E V} (h : PReach size n) {i j : Nat} {s : Part} (hj : j ∈ n.kids i s) (ha : ¬ n.active i s) :
    ∃ ctx0 b d ph m, n.w.jobs[j]? = some (.accepted ctx0 b d ph m) := by
  have hlt := ((p_inv h).kids i s j hj).2
  cases hx : n.w.jobs[j]? with
  | none => rw [List.getElem?_eq_none_iff] at hx; omega
  | some a =>
    cases a with
    | pending ctx b => exact absurd (inside h i s j hj ⟨_, _, hx⟩).1 ha
    | accepted ctx0 b d ph m => exact ⟨_, _, _, _, _, rfl⟩

/-- **C145.** If a call of `Run` made by a function waits, the function is executing and has made no call after this one. -/
theorem C145_inside {size : Int} {n : Both E V} (h : BReach size n) {i j : Nat} {s : Part} (hj : j ∈ n.kids i s) (hw : n.w.waiting j) :
    n.active i s ∧ ∃ l, n.kids i s = j :: l := by
  obtain ⟨h1, h2⟩ := inside (C146_has_C145 h) i s j hj hw
  exact ⟨by cases s <;> exact h1, h2⟩

/-- **C145.** When a function has returned, all calls of `Run` it has made have got their slots. -/
theorem C145_taken {size : Int} {n : Both E V} (h : BReach size n) {i j : Nat} {s : Part} (hj : j ∈ n.kids i s) (ha : ¬ n.active i s) :
    ∃ ctx0 b d ph m, n.w.jobs[j]? = some (.accepted ctx0 b d ph m) :=
  C146_taken (C146_has_C145 h) (s := s) hj fun h1 => ha (by cases s <;> exact h1)

/-! ## Examples -/

example : ∃ ctx0 b d ph m, lostP.w.jobs[1]? = some (.accepted ctx0 b d ph m) := C146_taken demoLostP (i := 0) (s := .run) (List.mem_singleton.mpr rfl) (lostP_idle _ _)
example : mixed.mayPanic.active 1 .deferFunc ∧ ∃ l, mixed.mayPanic.kids 1 .deferFunc = 3 :: l :=
  C146_inside (C146_has_C145 mixed_reach) (List.mem_singleton.mpr rfl) ⟨_, _, rfl⟩
example : mixed.active 0 .run ∧ ∃ l, mixed.kids 0 .run = 2 :: l := C145_inside mixed_reach (List.mem_singleton.mpr rfl) ⟨_, _, rfl⟩
example : ∃ ctx0 b d ph m, endB.w.jobs[1]? = some (.accepted ctx0 b d ph m) :=
  C145_taken demoB (i := 0) (s := .deferFunc) (List.mem_singleton.mpr rfl) fun ⟨_, _, _, _, h⟩ => by simp [endB, overJob] at h

end Verif.XWorker

import Verif.XMapReduce.Props
import Verif.XStream.Spec
/-! # The order of the output of `xmapreduce.Map` (C103) -/
namespace Verif.XMapReduce
open Verif.Go Verif.XTask Verif.XStream

variable {α β : Type}

/-- What the mappings in progress, `doMap` and the generator have still to write, one list per item. -/
def todo (f : α → List β) (m : MR α β) : List (List β) := m.jobs.map (·.writes) ++ m.pc.items.map f ++ m.gen.map f

theorem cancel_stays {f : α → List β} {m m' : MR α β} (hs : Step f m m') (h : m'.ctx = none) : m.ctx = none := by
  cases hs <;> first | exact h | assumption

theorem todo_step {f : α → List β} {m m' : MR α β} (hs : Step f m m') (hc : m'.ctx = none) :
    (todo f m' = todo f m ∧ m'.out ++ m'.collector.buf = m.out ++ m.collector.buf) ∨
    ∃ l₁ l₂ j v vs, m.jobs = l₁ ++ j :: l₂ ∧ j.d.gor = .running ∧ j.writes = v :: vs ∧
      todo f m = l₁.map (·.writes) ++ (v :: vs) :: (l₂.map (·.writes) ++ m.pc.items.map f ++ m.gen.map f) ∧
      todo f m' = l₁.map (·.writes) ++ vs :: (l₂.map (·.writes) ++ m.pc.items.map f ++ m.gen.map f) ∧
      m'.out ++ m'.collector.buf = m.out ++ m.collector.buf ++ [v] := by
  cases hs with
  | cancel _ _ => simp at hc
  | handOver x xs _ hg hp => left; simp [todo, hg, hp, Pc.items]
  | closeSource => left; exact ⟨rfl, rfl⟩
  | selectDone _ hp => left; simp [todo, hp, Pc.items]
  | selectClosed _ hp => left; simp [todo, hp, Pc.items]
  | add x _ hp => left; simp [todo, hp, Pc.items]
  | run x c _ hp _ => left; simp [todo, hp, Pc.items, Job.new]
  | doStep l₁ l₂ j d' _ hj => left; simp [todo, hj]
  | writeGo l₁ l₂ j v vs _ hj => left; simp [todo, hj]
  | writeDone l₁ l₂ j v vs _ hj _ _ _ hx => exact absurd hc hx
  | writeSent l₁ l₂ j v vs c _ hj hg hw _ hsd =>
    right
    obtain ⟨_, _, rfl⟩ := send_sent hsd
    exact ⟨l₁, l₂, j, v, vs, hj, hg, hw, by simp [todo, hj, hw], by simp [todo], by simp⟩
  | writePanic l₁ l₂ j v vs d' _ hj => left; simp [todo, hj]
  | mapReturn l₁ l₂ j d' _ hj => left; simp [todo, hj]
  | done l₁ l₂ j o _ hj => left; simp [todo, hj]
  | release l₁ l₂ j o d' c _ hj => left; simp [todo, hj]
  | waited _ hp => left; simp [todo, hp, Pc.items]
  | close _ hp => left; simp [todo, hp, Pc.items]
  | consume v c _ hr =>
    left
    obtain ⟨b1, _⟩ := recv_got hr
    exact ⟨rfl, by simp [b1]⟩
  | consumeEnd => left; exact ⟨rfl, rfl⟩

/-- Completing the output in any way that respects the order of the pending values gives an interleaving. -/
theorem order_inv {items : List α} {f : α → List β} {size : Nat} {ctx : Option Err} {m : MR α β} (h : Reach items f size ctx m) (hc : m.ctx = none) :
    ∀ t, Interleaving (todo f m) t → Interleaving (items.map f) (m.out ++ m.collector.buf ++ t) := by
  induction h with
  | init => intro t ht; simpa [todo, start, Pc.items, Chan.make] using ht
  | step h hs ih =>
    intro t ht
    have ih := ih (cancel_stays hs hc)
    rcases todo_step hs hc with ⟨e1, e2⟩ | ⟨l₁, l₂, j, v, vs, _, _, _, e1, e2, e3⟩
    · rw [e2]; exact ih t (e1 ▸ ht)
    · rw [e3, List.append_assoc _ [v]]
      refine ih _ ?_
      rw [e1]
      rw [e2] at ht
      exact .cons _ v vs _ _ ht

/-- Without cancellation a mapping whose worker has ended has written everything. -/
theorem left_written {items : List α} {f : α → List β} {size : Nat} {m : MR α β} (hi : Inv items f size m) (hctx : m.ctx = none) {j : Job α β} (hj : j ∈ m.jobs)
    (hjd : j.deferred = true) : j.writes = [] ∧ ∃ e, j.d.gor = .ended (.returned e) := by
  have hji := hi.jobs j hj
  obtain ⟨o, ho⟩ := hji.defd hjd
  obtain ⟨c0, hr⟩ := hji.reach
  rcases (do_inv hr).out o ho with ⟨e, _, h' | h'⟩ | ⟨p, _, h'⟩
  · rw [hji.ctxEq, hctx] at h'; simp at h'
  · exact ⟨hji.ret e (Or.inr h'), e, h'⟩
  · obtain ⟨_, e, he⟩ := hji.panicked (Or.inr h')
    rcases (do_inv hr).out (.err e) he with ⟨e', _, h'' | h''⟩ | ⟨p, h'', _⟩
    · rw [hji.ctxEq, hctx] at h''; simp at h''
    · rw [h'] at h''; simp at h''
    · simp at h''

/-- At the end nothing is pending. -/
theorem todo_end {items : List α} {f : α → List β} {size : Nat} {m : MR α β} (hi : Inv items f size m) (hctx : m.ctx = none) (hcl : m.collector.closed = true) :
    ∀ l ∈ todo f m, l = [] := by
  have hpc : m.pc = .ended := by
    have := hi.closed; rw [hcl] at this
    cases hp : m.pc <;> rw [hp] at this <;> simp at this ⊢
  have hw := hi.final (by rw [hpc]; rfl)
  have h2 := hi.wg
  have hgen : m.gen = [] := by
    rcases hi.over (by rw [hpc]; rfl) with h' | h'
    · exact absurd hctx h'
    · exact hi.src h'
  intro l hl
  simp only [todo, hgen, hpc, Pc.items, List.map_nil, List.append_nil, List.mem_map] at hl
  obtain ⟨j, hj, rfl⟩ := hl
  have hnd := zero_of_countP (p := notDeferred) (l := m.jobs) (by rw [hpc] at h2; simp only [Pc.running] at h2; omega) j hj
  exact (left_written hi hctx hj (by simpa [notDeferred] using hnd)).1

/-- C103: without cancellation the values written for one item come out in the order in which its mapping writes them, and
the complete output is an interleaving of these sequences: nothing is lost, duplicated or invented. -/
theorem C103_order {items : List α} {f : α → List β} {size : Nat} {ctx : Option Err} {m : MR α β} (h : Reach items f size ctx m)
    (hctx : m.ctx = none) (hd : m.drained = true) : Interleaving (items.map f) m.out := by
  obtain ⟨hcl, hbuf⟩ := (inv_reach h).drained hd
  have := order_inv h hctx [] (.nil _ (todo_end (inv_reach h) hctx hcl))
  simpa [hbuf] using this

example : ∃ m : MR Nat Nat, m.out = [10] ∧ Interleaving ([1].map fun x => [10 * x]) m.out :=
  have ⟨m, h, h1, h2, h3⟩ := demo; ⟨m, h3, C103_order h h1 h2⟩

/-- With one worker, only one mapping at a time has something to write. -/
theorem one_inv {items : List α} {f : α → List β} {ctx : Option Err} {m : MR α β} (h : Reach items f 1 ctx m) (hc : m.ctx = none) :
    m.out ++ m.collector.buf ++ (todo f m).flatten = items.flatMap f := by
  induction h with
  | init => simp [todo, start, Pc.items, Chan.make, List.flatMap]
  | @step m m' h hs ih =>
    have hc0 := cancel_stays hs hc
    have ih := ih hc0
    have hi := inv_reach h
    rcases todo_step hs hc with ⟨e1, e2⟩ | ⟨l₁, l₂, j, v, vs, hj, hg, hw, e1, e2, e3⟩
    · rw [e1, e2]; exact ih
    · have occ : ∀ j' ∈ m.jobs, j'.writes ≠ [] → occupies j' = true := by
        intro j' hj' hne
        rw [occupies, Bool.not_eq_true', Bool.eq_false_iff]
        intro hgone
        have hl : ∃ o, j'.d.caller = .left o := by
          cases hcl : j'.d.caller <;> rw [hcl] at hgone <;> simp [Caller.gone] at hgone ⊢
        obtain ⟨o, ho⟩ := hl
        exact hne (left_written hi hc0 hj' ((hi.jobs j' hj').left o ho)).1
      have hcnt : m.jobs.countP occupies ≤ 1 := by rw [← hi.slots.1]; exact hi.slots.2.2.2
      have hj1 := occ j (by rw [hj]; simp) (by rw [hw]; simp)
      have hz : l₁.countP occupies = 0 := by
        rw [hj, List.countP_append, List.countP_cons, hj1] at hcnt; simp at hcnt; omega
      have hl1 : ∀ l ∈ l₁.map (·.writes), l = [] := by
        intro l hl
        obtain ⟨j', hj', rfl⟩ := List.mem_map.1 hl
        by_contra hne
        have := occ j' (by rw [hj]; simp [hj']) hne
        rw [zero_of_countP hz j' hj'] at this
        simp at this
      have hf : (l₁.map (·.writes)).flatten = [] := by rw [List.flatten_eq_nil_iff]; exact hl1
      rw [e1] at ih
      rw [e2, e3, ← ih]
      simp only [List.flatten_append, List.flatten_cons, hf]
      simp

/-- C103: with one worker and without cancellation the output is in the order of the items. -/
theorem C103_in_order {items : List α} {f : α → List β} {ctx : Option Err} {m : MR α β} (h : Reach items f 1 ctx m)
    (hctx : m.ctx = none) (hd : m.drained = true) : m.out = items.flatMap f := by
  obtain ⟨hcl, hbuf⟩ := (inv_reach h).drained hd
  have h1 := one_inv h hctx
  rw [List.flatten_eq_nil_iff.2 (todo_end (inv_reach h) hctx hcl), hbuf] at h1
  simpa using h1

example : ∃ m : MR Nat Nat, m.out = [10] ∧ m.out = [1].flatMap fun x => [10 * x] :=
  have ⟨m, h, h1, h2, h3⟩ := demo; ⟨m, h3, C103_in_order h h1 h2⟩

end Verif.XMapReduce

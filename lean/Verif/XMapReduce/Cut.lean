import Verif.XMapReduce.Order
/-! # The output of `xmapreduce.Map` under cancellation (C120) -/
namespace Verif.XMapReduce
open Verif.Go Verif.XTask Verif.XStream

variable {α β : Type}

/-- What the mapping of a job has written. -/
def Job.sent (f : α → List β) (j : Job α β) : List β := (f j.item).take (j.results.count true)

/-- As long as no `Write` has been refused the rest is still to be written; a `Write` is refused only after cancellation. -/
structure JobCut (f : α → List β) (ctx : Option Err) (j : Job α β) : Prop where
  rest : false ∉ j.results → (f j.item).drop (j.results.count true) = j.writes
  refused : false ∈ j.results → ctx ≠ none ∧ j.sending = false

/-- Proof only: part of an invariant or simulation; models no code. -/
structure CutInv (items : List α) (f : α → List β) (m : MR α β) : Prop where
  order : items = m.jobs.map (·.item) ++ m.pc.items ++ m.gen
  jobs : ∀ j ∈ m.jobs, JobCut f m.ctx j
  out : Interleaving (m.jobs.map (Job.sent f)) (m.out ++ m.collector.buf)

theorem _root_.Verif.XStream.Interleaving.snoc {A : Type} {ls : List (List A)} {out : List A} (h : Interleaving ls out) : ∀ (l₁ : List (List A)) (r : List A) (l₂ : List (List A)) (x : A),
    ls = l₁ ++ r :: l₂ → Interleaving (l₁ ++ (r ++ [x]) :: l₂) (out ++ [x]) := by
  induction h with
  | nil ls h =>
    rintro l₁ r l₂ x rfl
    have hr : r = [] := h r (by simp)
    subst hr
    refine .cons l₁ x [] l₂ [] (.nil _ ?_)
    exact h
  | cons k₁ y s k₂ out _ ih =>
    intro l₁ r l₂ x e
    rcases List.append_eq_append_iff.1 e with ⟨c, e1, e2⟩ | ⟨c, e1, e2⟩
    · cases c with
      | nil =>
        simp only [List.nil_append, List.cons.injEq] at e2
        simp only [List.append_nil] at e1
        obtain ⟨rfl, rfl⟩ := e2
        subst e1
        exact .cons l₁ y (s ++ [x]) _ _ (ih _ _ _ x rfl)
      | cons d c =>
        simp only [List.cons_append, List.cons.injEq] at e2
        obtain ⟨rfl, rfl⟩ := e2
        subst e1
        have := ih (k₁ ++ s :: c) r l₂ x (by simp)
        have := Interleaving.cons k₁ y s (c ++ (r ++ [x]) :: l₂) (out ++ [x]) (by simpa using this)
        simpa using this
    · cases c with
      | nil =>
        simp only [List.nil_append, List.cons.injEq] at e2
        simp only [List.append_nil] at e1
        obtain ⟨rfl, rfl⟩ := e2
        subst e1
        exact .cons k₁ y (s ++ [x]) _ _ (ih _ _ _ x rfl)
      | cons d c =>
        simp only [List.cons_append, List.cons.injEq] at e2
        obtain ⟨rfl, rfl⟩ := e2
        subst e1
        have := ih l₁ r (c ++ s :: k₂) x (by simp)
        have := Interleaving.cons (l₁ ++ (r ++ [x]) :: c) y s k₂ (out ++ [x]) (by simpa using this)
        simpa using this

theorem _root_.Verif.XStream.Interleaving.pad {A : Type} {ls : List (List A)} {out : List A} (h : Interleaving ls out) (n : Nat) : Interleaving (ls ++ List.replicate n []) out := by
  induction h with
  | nil ls h =>
    refine .nil _ fun l hl => ?_
    rcases List.mem_append.1 hl with hl | hl
    · exact h l hl
    · exact List.eq_of_mem_replicate hl
  | cons k₁ y s k₂ out _ ih => simpa using Interleaving.cons k₁ y s (k₂ ++ List.replicate n []) out (by simpa using ih)

theorem cut_init (items : List α) (f : α → List β) (size : Nat) (ctx : Option Err) : CutInv items f (start items size ctx : MR α β) :=
  ⟨by simp [start, Pc.items], by simp [start], .nil _ (by simp [start])⟩

/-- A change of a job that does not concern what it writes. -/
theorem cut_same {f : α → List β} {items : List α} {m m' : MR α β} (h : CutInv items f m) {l₁ l₂ : List (Job α β)} {j j' : Job α β} (hj : m.jobs = l₁ ++ j :: l₂)
    (hj' : m'.jobs = l₁ ++ j' :: l₂) (h1 : j'.item = j.item) (h2 : j'.writes = j.writes) (h3 : j'.results = j.results) (h4 : false ∈ j.results → j'.sending = j.sending)
    (hg : m'.gen = m.gen) (hp : m'.pc = m.pc) (hc : m'.ctx = m.ctx) (ho : m'.out ++ m'.collector.buf = m.out ++ m.collector.buf) : CutInv items f m' := by
  refine ⟨?_, ?_, ?_⟩
  · rw [hj', hg, hp, h.order, hj]; simp [h1]
  · rw [hc, hj']
    have := h.jobs
    rw [hj] at this
    refine forall_repl this ?_
    have hjc := this j (by simp)
    exact ⟨by rw [h1, h2, h3]; exact hjc.rest, by rw [h3]; exact fun hx => ⟨(hjc.refused hx).1, (h4 hx).trans (hjc.refused hx).2⟩⟩
  · rw [ho, hj']
    have := h.out
    rw [hj] at this
    simpa [Job.sent, h1, h3] using this

theorem cut_step {f : α → List β} {items : List α} {m m' : MR α β} (h : CutInv items f m) (hs : Step f m m') : CutInv items f m' := by
  cases hs with
  | cancel _ hc =>
    refine ⟨by simpa [Function.comp_def] using h.order, ?_, by rw [List.map_map]; exact h.out⟩
    intro j hj
    obtain ⟨j0, hj0, rfl⟩ := List.mem_map.1 hj
    exact ⟨(h.jobs j0 hj0).rest, fun hx => absurd hc ((h.jobs j0 hj0).refused hx).1⟩
  | handOver x xs _ hg hp => exact ⟨by have := h.order; rw [hg, hp] at this; simpa [Pc.items] using this, h.jobs, h.out⟩
  | closeSource => exact ⟨h.order, h.jobs, h.out⟩
  | selectDone _ hp => exact ⟨by have := h.order; rw [hp] at this; simpa [Pc.items] using this, h.jobs, h.out⟩
  | selectClosed _ hp => exact ⟨by have := h.order; rw [hp] at this; simpa [Pc.items] using this, h.jobs, h.out⟩
  | add x _ hp => exact ⟨by have := h.order; rw [hp] at this; simpa [Pc.items] using this, h.jobs, h.out⟩
  | run x c _ hp _ =>
    refine ⟨by have := h.order; rw [hp] at this; simpa [Pc.items, Job.new] using this, ?_, ?_⟩
    · intro j hj
      rcases List.mem_append.1 hj with hj | hj
      · exact h.jobs j hj
      · simp only [List.mem_singleton] at hj
        subst hj
        exact ⟨by simp [Job.new], by simp [Job.new]⟩
    · simpa [Job.sent, Job.new] using h.out.pad 1
  | doStep l₁ l₂ j d' _ hj => exact cut_same h hj rfl rfl rfl rfl (fun _ => rfl) rfl rfl rfl rfl
  | writeGo l₁ l₂ j v vs _ hj _ _ _ hc =>
    exact cut_same h hj rfl rfl rfl rfl (fun hx => absurd hc ((h.jobs j (by rw [hj]; simp)).refused hx).1) rfl rfl rfl rfl
  | writeDone l₁ l₂ j v vs _ hj _ hw hsn hx =>
    refine ⟨by rw [h.order, hj]; simp, ?_, ?_⟩
    · have := h.jobs
      rw [hj] at this
      exact forall_repl this ⟨by simp, fun _ => ⟨hx, hsn⟩⟩
    · have := h.out
      rw [hj] at this
      simpa [Job.sent] using this
  | writeSent l₁ l₂ j v vs c _ hj hg hw hsn hsd =>
    obtain ⟨_, _, rfl⟩ := send_sent hsd
    have hjs := h.jobs
    rw [hj] at hjs
    have hjc := hjs j (by simp)
    have hf : false ∉ j.results := fun hx => by rw [(hjc.refused hx).2] at hsn; simp at hsn
    have hr := hjc.rest hf
    rw [hw] at hr
    refine ⟨by rw [h.order, hj]; simp, ?_, ?_⟩
    · refine forall_repl hjs ⟨fun _ => ?_, fun hx => absurd hx (by simp [hf])⟩
      simp only [List.count_append, List.count_singleton_self]
      rw [← List.drop_drop, hr]
      rfl
    · have := h.out
      rw [hj] at this
      have := this.snoc (l₁.map (Job.sent f)) (Job.sent f j) (l₂.map (Job.sent f)) v (by simp)
      have e : Job.sent f { j with writes := vs, sending := false, results := j.results ++ [true] } = Job.sent f j ++ [v] := by
        simp only [Job.sent, List.count_append, List.count_singleton_self]
        rw [List.take_add, hr]
        rfl
      simp only [List.map_append, List.map_cons, e]
      simpa using this
  | writePanic l₁ l₂ j v vs d' _ hj => exact cut_same h hj rfl rfl rfl rfl (fun _ => rfl) rfl rfl rfl rfl
  | mapReturn l₁ l₂ j d' _ hj => exact cut_same h hj rfl rfl rfl rfl (fun _ => rfl) rfl rfl rfl rfl
  | done l₁ l₂ j o _ hj => exact cut_same h hj rfl rfl rfl rfl (fun _ => rfl) rfl rfl rfl rfl
  | release l₁ l₂ j o d' c _ hj => exact cut_same h hj rfl rfl rfl rfl (fun _ => rfl) rfl rfl rfl rfl
  | waited _ hp => exact ⟨by have := h.order; rw [hp] at this; simpa [Pc.items] using this, h.jobs, h.out⟩
  | close _ hp => exact ⟨by have := h.order; rw [hp] at this; simpa [Pc.items] using this, h.jobs, h.out⟩
  | consume v c _ hr =>
    obtain ⟨b1, _⟩ := recv_got hr
    exact ⟨h.order, h.jobs, by have := h.out; rw [b1] at this; simpa using this⟩
  | consumeEnd => exact ⟨h.order, h.jobs, h.out⟩

theorem cut_inv {items : List α} {f : α → List β} {size : Nat} {ctx : Option Err} {m : MR α β} (h : Reach items f size ctx m) : CutInv items f m := by
  induction h with
  | init => exact cut_init ..
  | step _ hs ih => exact cut_step ih hs

/-- C120: whenever the context is done, what has come out is, for each item, a prefix of what its mapping writes, interleaved; mappings are
started in the order of the items, and only those of the items handed over have written anything. -/
theorem C120_cut {items : List α} {f : α → List β} {size : Nat} {ctx : Option Err} {m : MR α β} (h : Reach items f size ctx m) :
    m.jobs.map (·.item) <+: items ∧ ∃ ls, List.Forall₂ (· <+: ·) ls (items.map f) ∧ (∀ l ∈ ls.drop m.jobs.length, l = []) ∧
      Interleaving ls (m.out ++ m.collector.buf) := by
  have hc := cut_inv h
  have ho := hc.order
  refine ⟨⟨m.pc.items ++ m.gen, by rw [ho]; simp⟩, m.jobs.map (Job.sent f) ++ List.replicate (m.pc.items ++ m.gen).length [], ?_, ?_, hc.out.pad _⟩
  · rw [ho, List.append_assoc, List.map_append]
    refine List.rel_append ?_ ?_
    · rw [List.forall₂_map_left_iff, List.forall₂_map_right_iff, List.forall₂_map_right_iff, List.forall₂_same]
      exact fun j _ => List.take_prefix _ _
    · generalize m.pc.items ++ m.gen = l
      induction l with
      | nil => exact .nil
      | cons x xs ih => exact .cons (List.nil_prefix) ih
  · intro l hl
    rw [List.drop_left' (by simp)] at hl
    exact List.eq_of_mem_replicate hl

example := demoCancelled.imp fun _ h => C120_cut h.1

/-- One worker: the output is a prefix of what the mappings write, in the order of the items; after a cancellation at most one value more
comes out. -/
structure CutOne (items : List α) (f : α → List β) (m : MR α β) : Prop where
  out : m.out ++ m.collector.buf <+: items.flatMap f
  one : m.ctx ≠ none → m.jobs.countP (·.sending) ≤ 1
  next : m.ctx ≠ none → ∀ j ∈ m.jobs, j.sending = true → ∀ v vs, j.writes = v :: vs → m.out ++ m.collector.buf ++ [v] <+: items.flatMap f

theorem sending_occupies {items : List α} {f : α → List β} {size : Nat} {m : MR α β} (hi : Inv items f size m) (hc : m.ctx = none) {j : Job α β} (hj : j ∈ m.jobs)
    (hw : j.writes ≠ []) : occupies j = true := by
  rw [occupies, Bool.not_eq_true', Bool.eq_false_iff]
  intro hgone
  have hl : ∃ o, j.d.caller = .left o := by
    cases hcl : j.d.caller <;> rw [hcl] at hgone <;> simp [Caller.gone] at hgone ⊢
  obtain ⟨o, ho⟩ := hl
  exact hw (left_written hi hc hj ((hi.jobs j hj).left o ho)).1

/-- A step after cancellation, seen from what is written. -/
theorem cut_one_same {items : List α} {f : α → List β} {m m' : MR α β} (h : CutOne items f m) (hx : m.ctx ≠ none)
    (ho : m'.out ++ m'.collector.buf = m.out ++ m.collector.buf)
    (hj : ∃ l₁ k k' l₂, m.jobs = l₁ ++ k ++ l₂ ∧ m'.jobs = l₁ ++ k' ++ l₂ ∧ k'.countP (·.sending) ≤ k.countP (·.sending) ∧
      ∀ j' ∈ k', j'.sending = true → ∃ j ∈ k, j.sending = true ∧ j.writes = j'.writes) : CutOne items f m' := by
  obtain ⟨l₁, k, k', l₂, e1, e2, e3, e4⟩ := hj
  refine ⟨by rw [ho]; exact h.out, fun _ => ?_, ?_⟩
  · have := h.one hx
    rw [e1] at this
    rw [e2]
    simp only [List.countP_append] at this ⊢
    omega
  · intro _ j hj hs v vs hw
    rw [ho]
    rw [e2] at hj
    simp only [List.mem_append] at hj
    rcases hj with (hj | hj) | hj
    · exact h.next hx j (by rw [e1]; simp [hj]) hs v vs hw
    · obtain ⟨j0, h0, h1, h2⟩ := e4 j hj hs
      exact h.next hx j0 (by rw [e1]; simp [h0]) h1 v vs (by rw [h2, hw])
    · exact h.next hx j (by rw [e1]; simp [hj]) hs v vs hw

theorem cut_one {items : List α} {f : α → List β} {ctx : Option Err} {m : MR α β} (h : Reach items f 1 ctx m) : CutOne items f m := by
  induction h with
  | init => exact ⟨by simp [start, Chan.make], by simp [start], by simp [start]⟩
  | @step m m' h hs ih =>
    by_cases hc' : m'.ctx = none
    · exact ⟨⟨_, one_inv (h.step hs) hc'⟩, fun hx => absurd hc' hx, fun hx => absurd hc' hx⟩
    by_cases hc : m.ctx = none
    · -- the cancellation
      have hi := inv_reach h
      have key := one_inv h hc
      cases hs with
      | cancel _ _ =>
        refine ⟨⟨_, key⟩, fun _ => ?_, fun _ j hj hsn v vs hw => ?_⟩
        · simp only [List.countP_map]
          have hcnt : m.jobs.countP occupies ≤ 1 := by rw [← hi.slots.1]; exact hi.slots.2.2.2
          refine Nat.le_trans (List.countP_mono_left ?_) hcnt
          intro j hj hsn
          exact sending_occupies hi hc hj ((hi.jobs j hj).sending hsn)
        · obtain ⟨j0, hj0, rfl⟩ := List.mem_map.1 hj
          obtain ⟨l₁, l₂, e⟩ := List.append_of_mem hj0
          replace hw : j0.writes = v :: vs := hw
          have hcnt : m.jobs.countP occupies ≤ 1 := by rw [← hi.slots.1]; exact hi.slots.2.2.2
          have hz : l₁.countP occupies = 0 := by
            rw [e, List.countP_append, List.countP_cons, sending_occupies hi hc hj0 (by rw [hw]; simp)] at hcnt; simp at hcnt; omega
          have hf : (l₁.map (·.writes)).flatten = [] := by
            rw [List.flatten_eq_nil_iff]
            intro l hl
            obtain ⟨j', hj', rfl⟩ := List.mem_map.1 hl
            by_contra hne
            have := sending_occupies hi hc (j := j') (by rw [e]; simp [hj']) hne
            rw [zero_of_countP hz j' hj'] at this
            simp at this
          refine ⟨vs ++ (l₂.map (·.writes)).flatten ++ (m.pc.items.map f).flatten ++ (m.gen.map f).flatten, ?_⟩
          rw [← key]
          simp only [todo, e, List.map_append, List.map_cons, List.flatten_append, List.flatten_cons, hf, hw]
          simp
      | _ => exact absurd hc (by exact hc')
    · cases hs with
      | cancel _ hc0 => exact absurd hc0 hc
      | run x c _ hp _ => exact cut_one_same ih hc rfl ⟨m.jobs, [], [Job.new m.ctx f x], [], by simp, by simp, by simp [Job.new], by simp [Job.new]⟩
      | doStep l₁ l₂ j d' _ hj => exact cut_one_same ih hc rfl ⟨l₁, [j], [{ j with d := d' }], l₂, by simp [hj], by simp, by simp, by simp⟩
      | writeGo l₁ l₂ j v vs _ hj _ _ _ hc0 => exact absurd hc0 hc
      | writeDone l₁ l₂ j v vs _ hj _ hw hsn hx => exact cut_one_same ih hc rfl ⟨l₁, [j], [{ j with writes := vs, results := j.results ++ [false] }], l₂, by simp [hj], by simp, by simp, by simp [hsn]⟩
      | writeSent l₁ l₂ j v vs c _ hj hg hw hsn hsd =>
        obtain ⟨_, _, rfl⟩ := send_sent hsd
        have hz := ih.one hc
        rw [hj] at hz
        simp only [List.countP_append, List.countP_cons, hsn, if_true] at hz
        have hn : ∀ j' ∈ l₁ ++ l₂, j'.sending = false := by
          refine zero_of_countP (p := fun j : Job α β => j.sending) ?_
          rw [List.countP_append]; omega
        refine ⟨?_, fun _ => ?_, fun _ j' hj' hsn' => ?_⟩
        · have := ih.next hc j (by rw [hj]; simp) hsn v vs hw
          simpa using this
        · simp only [List.countP_append, List.countP_cons, Bool.false_eq_true, if_false]; omega
        · simp only [List.mem_append, List.mem_cons] at hj'
          rcases hj' with hj' | rfl | hj'
          · rw [hn j' (by simp [hj'])] at hsn'; simp at hsn'
          · simp at hsn'
          · rw [hn j' (by simp [hj'])] at hsn'; simp at hsn'
      | writePanic l₁ l₂ j v vs d' _ hj => exact cut_one_same ih hc rfl ⟨l₁, [j], [{ j with d := d' }], l₂, by simp [hj], by simp, by simp, by simp⟩
      | mapReturn l₁ l₂ j d' _ hj => exact cut_one_same ih hc rfl ⟨l₁, [j], [{ j with d := d' }], l₂, by simp [hj], by simp, by simp, by simp⟩
      | done l₁ l₂ j o _ hj => exact cut_one_same ih hc rfl ⟨l₁, [j], [{ j with deferred := true }], l₂, by simp [hj], by simp, by simp, by simp⟩
      | release l₁ l₂ j o d' c _ hj => exact cut_one_same ih hc rfl ⟨l₁, [j], [{ j with d := d' }], l₂, by simp [hj], by simp, by simp, by simp⟩
      | consume v c _ hr =>
        obtain ⟨b1, _⟩ := recv_got hr
        exact cut_one_same ih hc (by simp [b1]) ⟨m.jobs, [], [], [], by simp, by simp, by simp, by simp⟩
      | _ => exact cut_one_same ih hc rfl ⟨m.jobs, [], [], [], by simp, by simp, by simp, by simp⟩

/-- C120: with one worker, whenever the context is done, the output is a prefix of what the mappings write, in the order of the items. -/
theorem C120_cut_in_order {items : List α} {f : α → List β} {ctx : Option Err} {m : MR α β} (h : Reach items f 1 ctx m) :
    m.out ++ m.collector.buf <+: items.flatMap f := (cut_one h).out

example := demoCancelled.imp fun _ h => C120_cut_in_order h.1

end Verif.XMapReduce

import Verif.XMapReduce.CtxComp
/-!
# A `generateFunc` that watches the context

`C79` is about a `generateFunc` that only sends: when `Map` has stopped listening because of the context, it waits for ever. Here is the
remedy a user has, and what it is good for: a `generateFunc` that selects between sending and the end of the context,

    for _, x := range items {
        select {
        case source <- x:
        case <-ctx.Done():
            return
        }
    }

so that it can also return, and close `source`, at any moment after the cancellation.
-/
namespace Verif.XMapReduce
open Verif.Go Verif.XTask Verif.XStream

variable {α β : Type}

/-- The steps of `Map` (`Step`, xmapreduce.go:64-119), and one more: after the context is done, a `generateFunc` that has not sent
everything (xmapreduce.go:84) takes the other branch of its `select` and returns. -/
inductive StepG (f : α → List β) : MR α β → MR α β → Prop where
  | step {m m' : MR α β} : Step f m m' → StepG f m m'
  | giveUp (m : MR α β) : m.crashed = false → m.ctx ≠ none → m.gen ≠ [] → StepG f m { m with gen := [] }

/-- Reachable states with such a generator (`Reach`). -/
inductive ReachG (items : List α) (f : α → List β) (size : Nat) (ctx : Option Err) : MR α β → Prop where
  | init : ReachG items f size ctx (start items size ctx)
  | step {m m' : MR α β} : ReachG items f size ctx m → StepG f m m' → ReachG items f size ctx m'

/-- Executions with their number of steps. -/
inductive RunG (f : α → List β) : Nat → MR α β → MR α β → Prop where
  | nil (m : MR α β) : RunG f 0 m m
  | snoc {n : Nat} {m m' m'' : MR α β} : RunG f n m m' → StepG f m' m'' → RunG f (n + 1) m m''

/-- The same execution with a generator that goes on waiting: it has still `g` to send. -/
def hold (m : MR α β) (g : List α) : MR α β := { m with gen := g, srcClosed := false }

/-- `a` is `m`, or `m` with a generator that has not given up. -/
def Like (m a : MR α β) : Prop := m = a ∨ m.ctx ≠ none ∧ m.gen = [] ∧ ∃ g, g ≠ [] ∧ a = hold m g

theorem weight_hold (f : α → List β) (m : MR α β) (g : List α) (hg : m.gen = []) :
    weight f (hold m g) = weight f m + (g.map fun x => 12 + 3 * (f x).length).sum + (if m.srcClosed then 1 else 0) := by
  obtain ⟨c, gn, sr, pc, wg, sl, co, js, out, dr, cr, cl⟩ := m
  simp only at hg
  subst hg
  cases sr <;> cases dr <;> cases c <;> simp [weight, hold] <;> omega

theorem like_step {items : List α} {f : α → List β} {size : Nat} {ctx : Option Err} {m m' a : MR α β} (h : Reach items f size ctx a) (hl : Like m a)
    (hs : StepG f m m') : (∃ a', Reach items f size ctx a' ∧ Like m' a') ∧ weight f m' < weight f m := by
  rcases hl with rfl | ⟨hx, hg, g, hgn, rfl⟩
  · cases hs with
    | step hs => exact ⟨⟨_, h.step hs, .inl rfl⟩, step_weight (inv_reach h) hs⟩
    | giveUp hc hx hn =>
      refine ⟨⟨m, h, ?_⟩, ?_⟩
      · refine .inr ⟨hx, rfl, m.gen, hn, ?_⟩
        have : m.srcClosed = false := by
          cases hsr : m.srcClosed with
          | false => rfl
          | true => exact absurd ((inv_reach h).src hsr) hn
        cases m; simp_all [hold]
      · cases hgen : m.gen with
        | nil => exact absurd hgen hn
        | cons x xs => simp only [weight, hgen, List.map_cons, List.sum_cons, List.map_nil, List.sum_nil]; omega
  · cases hs with
    | giveUp hc hx hn => exact absurd hg hn
    | step hs =>
      have keep : ∀ b : MR α β, Step f (hold m g) (hold b g) → b.ctx = m.ctx → b.gen = [] → b.srcClosed = m.srcClosed →
          (∃ a', Reach items f size ctx a' ∧ Like b a') ∧ weight f b < weight f m := by
        intro b hs' e1 e2 e3
        refine ⟨⟨_, h.step hs', .inr ⟨by rw [e1]; exact hx, e2, g, hgn, rfl⟩⟩, ?_⟩
        have := step_weight (inv_reach h) hs'
        rw [weight_hold f b g e2, weight_hold f m g hg, e3] at this
        omega
      cases hs with
      | cancel _ hn => exact absurd hn hx
      | handOver x xs _ hg' => rw [hg] at hg'; simp at hg'
      | closeSource hc _ hsr => exact ⟨⟨_, h, .inr ⟨hx, hg, g, hgn, rfl⟩⟩, by simp [weight, hsr]⟩
      | selectDone hc hp hx' => exact keep _ (.selectDone _ hc hp hx) rfl hg rfl
      | selectClosed hc hp _ => exact keep _ (.selectDone _ hc hp hx) rfl hg rfl
      | add x hc hp => exact keep _ (.add _ x hc hp) rfl hg rfl
      | run x c hc hp hsd => exact keep _ (.run _ x c hc hp hsd) rfl hg rfl
      | doStep l₁ l₂ j d' hc hj h1 h2 h3 h4 => exact keep _ (.doStep _ l₁ l₂ j d' hc hj h1 h2 h3 h4) rfl hg rfl
      | writeGo l₁ l₂ j v vs hc hj h1 h2 h3 h4 => exact keep _ (.writeGo _ l₁ l₂ j v vs hc hj h1 h2 h3 h4) rfl hg rfl
      | writeDone l₁ l₂ j v vs hc hj h1 h2 h3 h4 => exact keep _ (.writeDone _ l₁ l₂ j v vs hc hj h1 h2 h3 h4) rfl hg rfl
      | writeSent l₁ l₂ j v vs c hc hj h1 h2 h3 h4 => exact keep _ (.writeSent _ l₁ l₂ j v vs c hc hj h1 h2 h3 h4) rfl hg rfl
      | writePanic l₁ l₂ j v vs d' hc hj h1 h2 h3 h4 h5 h6 => exact keep _ (.writePanic _ l₁ l₂ j v vs d' hc hj h1 h2 h3 h4 h5 h6) rfl hg rfl
      | mapReturn l₁ l₂ j d' hc hj h1 h2 h3 h4 => exact keep _ (.mapReturn _ l₁ l₂ j d' hc hj h1 h2 h3 h4) rfl hg rfl
      | done l₁ l₂ j o hc hj h1 h2 => exact keep _ (.done _ l₁ l₂ j o hc hj h1 h2) rfl hg rfl
      | release l₁ l₂ j o d' c hc hj h1 h2 h3 h4 h5 => exact keep _ (.release _ l₁ l₂ j o d' c hc hj h1 h2 h3 h4 h5) rfl hg rfl
      | waited hc hp hw => exact keep _ (.waited _ hc hp hw) rfl hg rfl
      | close hc hp => exact keep _ (.close _ hc hp) rfl hg rfl
      | consume v c hc hr => exact keep _ (.consume _ v c hc hr) rfl hg rfl
      | consumeEnd hc hd hr => exact keep _ (.consumeEnd _ hc hd hr) rfl hg rfl

theorem reachG_like {items : List α} {f : α → List β} {size : Nat} {ctx : Option Err} {m : MR α β} (h : ReachG items f size ctx m) :
    ∃ a, Reach items f size ctx a ∧ Like m a := by
  induction h with
  | init => exact ⟨_, .init, .inl rfl⟩
  | step _ hs ih => obtain ⟨a, ha, hl⟩ := ih; exact (like_step ha hl hs).1

/-- What the other generator can do without the context changing, this one can, or something else. -/
theorem like_back {f : α → List β} {m a a' : MR α β} (hl : Like m a) (hs : Step f a a') (hctx : a'.ctx = a.ctx) :
    ∃ m', StepG f m m' ∧ m'.ctx = m.ctx ∧ (a'.out = a.out → m'.out = m.out) ∧ (a'.drained = a.drained → m'.drained = m.drained) := by
  rcases hl with rfl | ⟨hx, hg, g, hgn, rfl, id, id⟩
  · exact ⟨_, .step hs, hctx, id, id⟩
  · cases hs with
    | cancel _ hn => exact absurd hn hx
    | handOver x xs hc _ hp => exact ⟨_, .step (.selectDone _ hc hp hx), rfl, id, id⟩
    | closeSource hc hg' hsr => exact absurd hg' hgn
    | selectDone hc hp hx' => exact ⟨_, .step (.selectDone _ hc hp hx), rfl, id, id⟩
    | selectClosed hc hp _ => exact ⟨_, .step (.selectDone _ hc hp hx), rfl, id, id⟩
    | add x hc hp => exact ⟨_, .step (.add _ x hc hp), rfl, id, id⟩
    | run x c hc hp hsd => exact ⟨_, .step (.run _ x c hc hp hsd), rfl, id, id⟩
    | doStep l₁ l₂ j d' hc hj h1 h2 h3 h4 => exact ⟨_, .step (.doStep _ l₁ l₂ j d' hc hj h1 h2 h3 h4), rfl, id, id⟩
    | writeGo l₁ l₂ j v vs hc hj h1 h2 h3 h4 => exact ⟨_, .step (.writeGo _ l₁ l₂ j v vs hc hj h1 h2 h3 h4), rfl, id, id⟩
    | writeDone l₁ l₂ j v vs hc hj h1 h2 h3 h4 => exact ⟨_, .step (.writeDone _ l₁ l₂ j v vs hc hj h1 h2 h3 h4), rfl, id, id⟩
    | writeSent l₁ l₂ j v vs c hc hj h1 h2 h3 h4 => exact ⟨_, .step (.writeSent _ l₁ l₂ j v vs c hc hj h1 h2 h3 h4), rfl, id, id⟩
    | writePanic l₁ l₂ j v vs d' hc hj h1 h2 h3 h4 h5 h6 => exact ⟨_, .step (.writePanic _ l₁ l₂ j v vs d' hc hj h1 h2 h3 h4 h5 h6), rfl, id, id⟩
    | mapReturn l₁ l₂ j d' hc hj h1 h2 h3 h4 => exact ⟨_, .step (.mapReturn _ l₁ l₂ j d' hc hj h1 h2 h3 h4), rfl, id, id⟩
    | done l₁ l₂ j o hc hj h1 h2 => exact ⟨_, .step (.done _ l₁ l₂ j o hc hj h1 h2), rfl, id, id⟩
    | release l₁ l₂ j o d' c hc hj h1 h2 h3 h4 h5 => exact ⟨_, .step (.release _ l₁ l₂ j o d' c hc hj h1 h2 h3 h4 h5), rfl, id, id⟩
    | waited hc hp hw => exact ⟨_, .step (.waited _ hc hp hw), rfl, id, id⟩
    | close hc hp => exact ⟨_, .step (.close _ hc hp), rfl, id, id⟩
    | consume v c hc hr => exact ⟨_, .step (.consume _ v c hc hr), rfl, id, id⟩
    | consumeEnd hc hd hr => exact ⟨_, .step (.consumeEnd _ hc hd hr), rfl, id, id⟩

/-! ## Concrete executions -/

/-- After the cancellation the generator gives up the second item, and everything ends: the item that was handed over was refused. -/
theorem demoGivesUp : ∃ m : MR Nat Nat, ReachG [1, 2] (fun x => [10 * x]) 1 none m ∧ m.ctx ≠ none ∧ m.gen = [] ∧ m.srcClosed = true ∧
    m.drained = true ∧ m.jobs.map (·.item) = [1] ∧ m.out = [] ∧ m.jobs.all (fun j => Caller.gone j.d.caller) = true := by
  have h0 : ReachG [1, 2] (fun x : Nat => [10 * x]) 1 none (start [1, 2] 1 none) := .init
  have h1 := h0.step (.step (.handOver _ 1 [2] rfl rfl rfl))
  have h2 := h1.step (.step (.add _ 1 rfl rfl))
  have h3 := h2.step (.step (.run _ 1 _ rfl rfl rfl))
  have h4 := h3.step (.step (.cancel _ rfl rfl))
  have h5 := h4.step (.giveUp _ rfl (by simp) (by simp))
  have h6 := h5.step (.step (.closeSource _ rfl rfl rfl))
  have h7 := h6.step (.step (.selectClosed _ rfl rfl rfl))
  have h8 := h7.step (.step (.doStep _ [] [] _ _ rfl rfl (.entryDone _ .ctx rfl rfl) rfl (by simp) (by simp)))
  have h9 := h8.step (.step (.done _ [] [] _ _ rfl rfl rfl rfl))
  have h10 := h9.step (.step (.release _ [] [] _ _ _ _ rfl rfl rfl rfl rfl (.leave _ _ rfl) rfl))
  have h11 := h10.step (.step (.waited _ rfl rfl rfl))
  have h12 := h11.step (.step (.close _ rfl rfl))
  have h13 := h12.step (.step (.consumeEnd _ rfl rfl rfl))
  exact ⟨_, h13, by simp, rfl, rfl, rfl, rfl, rfl, rfl⟩

/-! ## The theorems -/

/-- C135: such a generator changes nothing in what comes out: for every item a prefix of what its mapping writes, interleaved, mappings being
started in the order of the items; the output is closed at most once; nothing crashes. -/
theorem C135_output {items : List α} {f : α → List β} {size : Nat} {ctx : Option Err} {m : MR α β} (h : ReachG items f size ctx m) :
    m.crashed = false ∧ m.closes ≤ 1 ∧ m.jobs.map (·.item) <+: items ∧
    ∃ ls, List.Forall₂ (· <+: ·) ls (items.map f) ∧ (∀ l ∈ ls.drop m.jobs.length, l = []) ∧ Interleaving ls (m.out ++ m.collector.buf) := by
  obtain ⟨a, ha, hl⟩ := reachG_like h
  have h1 := (inv_reach ha).crashed
  have h2 : a.closes ≤ 1 := by
    have := (inv_reach ha).closes
    split at this <;> omega
  have h3 := C120_cut ha
  rcases hl with rfl | ⟨_, _, g, _, rfl⟩
  · exact ⟨h1, h2, h3⟩
  · exact ⟨h1, h2, h3⟩

example := demoGivesUp.imp fun _ h => C135_output h.1

/-- C135: as long as the context is not done, the executions are those of a generator that only sends (so that C15 to C17 apply to them as they
are: nothing is lost, …). -/
theorem C135_same {items : List α} {f : α → List β} {size : Nat} {ctx : Option Err} {m : MR α β} (h : ReachG items f size ctx m) (hx : m.ctx = none) :
    Reach items f size ctx m := by
  obtain ⟨a, ha, rfl | ⟨h1, _⟩⟩ := reachG_like h
  · exact ha
  · exact absurd hx h1

example : ∃ m : MR Nat Nat, Reach [1] (fun x => [10 * x]) 1 none m ∧ m.ctx = none :=
  ⟨_, C135_same (ReachG.init.step (.step (.handOver _ 1 [] rfl rfl rfl))) rfl, rfl⟩

/-- C135: every execution is finite, with the bound of C17. -/
theorem C135_finite {items : List α} {f : α → List β} {size : Nat} {ctx : Option Err} {n : Nat} {m : MR α β}
    (h : RunG f n (start items size ctx) m) : n ≤ 6 + (items.map fun x => 12 + 3 * (f x).length).sum := by
  have key : (∃ a, Reach items f size ctx a ∧ Like m a) ∧ n + weight f m ≤ weight f (start items size ctx : MR α β) := by
    generalize hs0 : (start items size ctx : MR α β) = s at h
    induction h with
    | nil => subst hs0; exact ⟨⟨_, .init, .inl rfl⟩, by omega⟩
    | snoc _ hs ih =>
      obtain ⟨⟨a, h1, hl⟩, h2⟩ := ih hs0
      obtain ⟨h3, h4⟩ := like_step h1 hl hs
      exact ⟨h3, by omega⟩
  have h2 := key.2
  have : weight f (start items size ctx : MR α β) ≤ 6 + (items.map fun x => 12 + 3 * (f x).length).sum := by
    simp only [weight, start, pcW, Chan.make, List.map_nil, List.sum_nil, List.length_nil]
    by_cases hc : ctx = none <;> simp [hc] <;> omega
  omega

example : ∃ m : MR Nat Nat, RunG (fun x => [10 * x]) 2 (start [1, 2] 1 none) m ∧ m.gen = [] :=
  ⟨_, .snoc (.snoc (.nil _) (.step (.cancel _ rfl rfl))) (.giveUp _ rfl (by simp) (by simp [start])), rfl⟩

/-- C135: what C79 misses. With such a generator, at least one worker and a consumer that keeps receiving, whenever nothing more can happen
(without a change of the context) everything has ended, be the context done or not: the consumer has seen the end of the output,
`generateFunc` has returned and `source` is closed, `doMap` has returned, and for each item handed over the worker goroutine has left
and the goroutine of the mapping has ended or was never started. With C135_finite: no goroutine of `Map` is left behind. -/
theorem C135_nothing_left {items : List α} {f : α → List β} {size : Nat} (hsz : 1 ≤ size) {ctx : Option Err} {m : MR α β}
    (h : ReachG items f size ctx m) (hstuck : ∀ m', StepG f m m' → m'.ctx ≠ m.ctx) :
    m.drained = true ∧ m.gen = [] ∧ m.srcClosed = true ∧ m.pc = .ended ∧
    ∀ j ∈ m.jobs, (∃ o, j.d.caller = .left o) ∧ (j.d.gor = .none ∨ ∃ o, j.d.gor = .ended o) := by
  obtain ⟨a, ha, hl⟩ := reachG_like h
  have hi := inv_reach ha
  have hno : ∀ a', Step f a a' → a'.ctx = a.ctx → False := by
    intro a' hs hx
    obtain ⟨m', hs', hx', _⟩ := like_back hl hs hx
    exact hstuck m' hs' hx'
  have hd : a.drained = true := by
    cases hd : a.drained with
    | true => rfl
    | false => obtain ⟨a', hs, hx⟩ := C17_progress hsz ha hd; exact (hno a' hs hx).elim
  obtain ⟨hcl, hb⟩ := hi.drained hd
  have hpc : a.pc = .ended := by
    have := hi.closed; rw [hcl] at this
    cases hp : a.pc <;> rw [hp] at this <;> simp at this ⊢
  have hjobs : ∀ j ∈ a.jobs, (∃ o, j.d.caller = .left o) ∧ (j.d.gor = .none ∨ ∃ o, j.d.gor = .ended o) := by
    intro j hj
    refine ⟨?_, ?_⟩
    · by_contra hn
      obtain ⟨a', hs, hx⟩ := job_progress hi hsz hj (fun o ho => hn ⟨o, ho⟩)
      exact hno a' hs hx
    · by_contra hn
      rw [not_or] at hn
      obtain ⟨a', hs, hx, _⟩ := mapping_progress hi hsz hb hj hn.1 (fun o ho => hn.2 ⟨o, ho⟩)
      exact hno a' hs hx
  rcases hl with rfl | ⟨hx, hg, g, hgn, rfl⟩
  · by_cases hg : m.gen = []
    · cases hsr : m.srcClosed with
      | true => exact ⟨hd, hg, rfl, hpc, hjobs⟩
      | false => exact (hstuck _ (.step (.closeSource _ hi.crashed hg hsr)) rfl).elim
    · by_cases hx : m.ctx = none
      · exact absurd (C79_generator_partial ha hx hcl).1 hg
      · exact (hstuck _ (.giveUp _ hi.crashed hx hg) rfl).elim
  · cases hsr : m.srcClosed with
    | true => exact ⟨hd, hg, rfl, hpc, hjobs⟩
    | false => exact (hstuck _ (.step (.closeSource _ hi.crashed hg hsr)) rfl).elim

/-- The state of `demoGivesUp` is such a state: nothing more can happen. -/
example : ∃ m : MR Nat Nat, ReachG [1, 2] (fun x => [10 * x]) 1 none m ∧ m.ctx ≠ none ∧ m.jobs.map (·.item) = [1] ∧
    ∀ m', StepG (fun x => [10 * x]) m m' → m'.ctx ≠ m.ctx := by
  have key : ∀ (n : Nat) (m : MR Nat Nat), weight (fun x => [10 * x]) m ≤ n → ReachG [1, 2] (fun x => [10 * x]) 1 none m → m.ctx ≠ none → m.pc = .ended →
      m.jobs.map (·.item) = [1] → ∃ m' : MR Nat Nat, ReachG [1, 2] (fun x => [10 * x]) 1 none m' ∧ m'.ctx ≠ none ∧ m'.jobs.map (·.item) = [1] ∧
        ∀ m'', StepG (fun x => [10 * x]) m' m'' → m''.ctx ≠ m'.ctx := by
    intro n
    induction n with
    | zero =>
      intro m hw h hx hp hj
      refine ⟨m, h, hx, hj, fun m'' hs => ?_⟩
      obtain ⟨a, ha, hl⟩ := reachG_like h
      have := (like_step ha hl hs).2
      omega
    | succ n ih =>
      intro m hw h hx hp hj
      by_cases hst : ∀ m'', StepG (fun x => [10 * x]) m m'' → m''.ctx ≠ m.ctx
      · exact ⟨m, h, hx, hj, hst⟩
      · simp only [not_forall, not_not] at hst
        obtain ⟨m'', hs, hx'⟩ := hst
        obtain ⟨a, ha, hl⟩ := reachG_like h
        have hlt := (like_step ha hl hs).2
        refine ih m'' (by omega) (h.step hs) (by rw [hx']; exact hx) ?_ ?_
        · cases hs with
          | giveUp => exact hp
          | step hs => cases hs <;> simp_all
        · cases hs with
          | giveUp => exact hj
          | step hs => cases hs <;> simp_all
  obtain ⟨m, h1, h2, _, _, h5, h6, _⟩ := demoGivesUp
  refine key _ m (Nat.le_refl _) h1 h2 ?_ h6
  obtain ⟨a, ha, hl⟩ := reachG_like h1
  have hi := inv_reach ha
  have hd : a.drained = true := by rcases hl with rfl | ⟨_, _, g, _, rfl⟩ <;> exact h5
  have hpc : a.pc = .ended := by
    have := hi.closed; rw [(hi.drained hd).1] at this
    cases hp : a.pc <;> rw [hp] at this <;> simp at this ⊢
  rcases hl with rfl | ⟨_, _, g, _, rfl⟩ <;> exact hpc

end Verif.XMapReduce

import Verif.XMapReduce.ReactLemmas
/-! # Property theorems for `xmapreduce.Map` with a `mapFunc` that reacts to the results of `Write` (C122) -/
namespace Verif.XMapReduce
open Verif.Go Verif.XTask Verif.XStream

variable {α β : Type}

/-! ## A concrete `mapFunc` and executions of it, used as witnesses beside the theorems -/

/-- Writes `10 x` and `10 x + 1`; when a `Write` reports `false` it writes a `0` (which is refused, too) and returns. -/
def reacting (x : Nat) : MapF Nat :=
  .write (10 * x) fun b => if b then .write (10 * x + 1) fun b' => if b' then .ret else .write 0 fun _ => .ret else .write 0 fun _ => .ret

/-- Writes as long as `Write` reports `true`. -/
def MapF.upto : List β → MapF β
  | [] => .ret
  | v :: vs => .write v fun b => if b then upto vs else .ret

/-- A complete execution. -/
theorem demoA : ∃ m : MRA Nat Nat, ReachA [1] reacting 1 none m ∧ m.ctx = none ∧ m.drained = true ∧ m.out = [10, 11] := by
  have h0 : ReachA [1] reacting 1 none (startA [1] 1 none) := .init
  have h1 := h0.step (.handOver _ 1 [] rfl rfl rfl)
  have h2 := h1.step (.add _ 1 rfl rfl)
  have h3 := h2.step (.run _ 1 _ rfl rfl rfl)
  have h4 := h3.step (.doStep _ [] [] _ _ rfl rfl (.entryGo _ rfl rfl) rfl (by simp) (by simp))
  have h5 := h4.step (.doStep _ [] [] _ _ rfl rfl (.spawn _ rfl) rfl (by simp) (by simp))
  have h6 := h5.step (.writeGo _ [] [] _ 10 _ rfl rfl rfl rfl rfl rfl)
  have h7 := h6.step (.writeSent _ [] [] _ 10 _ _ rfl rfl rfl rfl rfl rfl)
  have g1 := h7.step (.consume _ 10 _ rfl rfl)
  have g2 := g1.step (.writeGo _ [] [] _ 11 _ rfl rfl rfl rfl rfl rfl)
  have g3 := g2.step (.writeSent _ [] [] _ 11 _ _ rfl rfl rfl rfl rfl rfl)
  have h8 := g3.step (.mapReturn _ [] [] _ _ rfl rfl rfl rfl (.finish _ (.returned .nil) rfl) rfl)
  have h9 := h8.step (.doStep _ [] [] _ _ rfl rfl (.deliverRet _ .nil _ rfl rfl) rfl (by simp) (by simp))
  have h10 := h9.step (.doStep _ [] [] _ _ rfl rfl (.recvDone _ .nil _ rfl rfl) rfl (by simp) (by simp))
  have h11 := h10.step (.done _ [] [] _ (.err .nil) rfl rfl rfl rfl)
  have h12 := h11.step (.closeSource _ rfl rfl rfl)
  have h13 := h12.step (.selectClosed _ rfl rfl rfl)
  have h14 := h13.step (.waited _ rfl rfl rfl)
  have h15 := h14.step (.close _ rfl rfl)
  have h16 := h15.step (.consume _ 11 _ rfl rfl)
  have h17 := h16.step (.consumeEnd _ rfl rfl rfl)
  exact ⟨_, h17, rfl, rfl, rfl⟩

/-- Cancelled while `mapFunc` is inside its first `Write`: this one reports `true`, the next two report `false`. -/
theorem demoRefused : ∃ m : MRA Nat Nat, ReachA [1] reacting 1 none m ∧ m.ctx ≠ none ∧ m.drained = false ∧ m.collector.closed = false ∧ m.collector.buf = [10] ∧
    m.jobs.map (·.results) = [[true, false, false]] ∧ ∃ j ∈ m.jobs, j.item = 1 ∧ (reacting 1).calls j.results = [(10, true), (11, false), (0, false)] := by
  have h0 : ReachA [1] reacting 1 none (startA [1] 1 none) := .init
  have h1 := h0.step (.handOver _ 1 [] rfl rfl rfl)
  have h2 := h1.step (.add _ 1 rfl rfl)
  have h3 := h2.step (.run _ 1 _ rfl rfl rfl)
  have h4 := h3.step (.doStep _ [] [] _ _ rfl rfl (.entryGo _ rfl rfl) rfl (by simp) (by simp))
  have h5 := h4.step (.doStep _ [] [] _ _ rfl rfl (.spawn _ rfl) rfl (by simp) (by simp))
  have h6 := h5.step (.writeGo _ [] [] _ 10 _ rfl rfl rfl rfl rfl rfl)
  have h7 := h6.step (.cancel _ rfl rfl)
  have h8 := h7.step (.writeSent _ [] [] _ 10 _ _ rfl rfl rfl rfl rfl rfl)
  have h9 := h8.step (.writeDone _ [] [] _ 11 _ rfl rfl rfl rfl rfl (by simp))
  have h10 := h9.step (.writeDone _ [] [] _ 0 _ rfl rfl rfl rfl rfl (by simp))
  exact ⟨_, h10, by simp, rfl, rfl, rfl, rfl, _, List.mem_singleton.2 rfl, rfl, rfl⟩

/-- As `demoRefused`, with a `mapFunc` that stops. -/
theorem demoStops : ∃ m : MRA Nat Nat, ReachA [1] (fun x => .upto [10 * x, 10 * x + 1, 10 * x + 2]) 1 none m ∧ m.jobs.map (·.results) = [[true, false]] := by
  have h0 : ReachA [1] (fun x => .upto [10 * x, 10 * x + 1, 10 * x + 2]) 1 none (startA [1] 1 none) := .init
  have h1 := h0.step (.handOver _ 1 [] rfl rfl rfl)
  have h2 := h1.step (.add _ 1 rfl rfl)
  have h3 := h2.step (.run _ 1 _ rfl rfl rfl)
  have h4 := h3.step (.doStep _ [] [] _ _ rfl rfl (.entryGo _ rfl rfl) rfl (by simp) (by simp))
  have h5 := h4.step (.doStep _ [] [] _ _ rfl rfl (.spawn _ rfl) rfl (by simp) (by simp))
  have h6 := h5.step (.writeGo _ [] [] _ 10 _ rfl rfl rfl rfl rfl rfl)
  have h7 := h6.step (.cancel _ rfl rfl)
  have h8 := h7.step (.writeSent _ [] [] _ 10 _ _ rfl rfl rfl rfl rfl rfl)
  have h9 := h8.step (.writeDone _ [] [] _ 11 _ rfl rfl rfl rfl rfl (by simp))
  exact ⟨_, h9, rfl⟩

/-! ## What comes out -/

/-- C122: without cancellation exactly what the mappings write when every `Write` succeeds comes out, in some order. -/
theorem C122_multiset {items : List α} {F : α → MapF β} {size : Nat} {ctx : Option Err} {m : MRA α β} (h : ReachA items F size ctx m)
    (hctx : m.ctx = none) (hd : m.drained = true) : m.out.Perm (items.flatMap fun x => (F x).all) :=
  C15_multiset (reachA h) hctx hd

example := demoA.imp fun _ h => C122_multiset h.1 h.2.1 h.2.2.1

/-- C122: and it is an interleaving of what each mapping writes, in its order. -/
theorem C122_order {items : List α} {F : α → MapF β} {size : Nat} {ctx : Option Err} {m : MRA α β} (h : ReachA items F size ctx m)
    (hctx : m.ctx = none) (hd : m.drained = true) : Interleaving (items.map fun x => (F x).all) m.out :=
  C103_order (reachA h) hctx hd

example := demoA.imp fun _ h => C122_order h.1 h.2.1 h.2.2.1

/-- C122: with one worker the output is in the order of the items. -/
theorem C122_in_order {items : List α} {F : α → MapF β} {ctx : Option Err} {m : MRA α β} (h : ReachA items F 1 ctx m)
    (hctx : m.ctx = none) (hd : m.drained = true) : m.out = items.flatMap fun x => (F x).all :=
  C103_in_order (reachA h) hctx hd

example := demoA.imp fun _ h => C122_in_order h.1 h.2.1 h.2.2.1

/-! ## What `Write` reports -/

/-- C122: the results of the `Write` calls of one mapping: it behaves as its program does with these results; once a `Write` reports `false`
all later ones do, and this happens only after the context is done; the accepted values are a prefix of what the mapping writes if all succeed. -/
theorem C122_results {items : List α} {F : α → MapF β} {size : Nat} {ctx : Option Err} {m : MRA α β} (h : ReachA items F size ctx m) :
    ∀ j ∈ m.jobs, j.code = (F j.item).after j.results ∧ ((F j.item).calls j.results).map (·.2) = j.results ∧
      (∃ a b, j.results = List.replicate a true ++ List.replicate b false ∧ (b ≠ 0 → m.ctx ≠ none)) ∧
      accepted ((F j.item).calls j.results) <+: (F j.item).all := by
  intro j hj
  obtain ⟨h1, h2, h3, h4, h5, h6⟩ := aok h j hj
  refine ⟨h1, ?_, ⟨(j.results.filter id).length, (j.results.filter (! ·)).length, ?_, ?_⟩, h6⟩
  · have key : ∀ (c : MapF β) (bs : List Bool), (c.calls bs).length = bs.length → (c.calls bs).map (·.2) = bs := by
      intro c bs
      induction bs generalizing c with
      | nil => cases c <;> simp [MapF.calls]
      | cons b bs ih =>
        cases c with
        | ret => simp [MapF.calls]
        | write v k => intro hl; simp only [MapF.calls, List.length_cons, Nat.add_right_cancel_iff] at hl; simp [MapF.calls, ih (k b) hl]
    exact key _ _ h2
  · conv_lhs => rw [h5]
    congr 1
    · rw [List.eq_replicate_iff]; exact ⟨rfl, fun b hb => by simpa using (List.mem_filter.1 hb).2⟩
    · rw [List.eq_replicate_iff]; exact ⟨rfl, fun b hb => by simpa using (List.mem_filter.1 hb).2⟩
  · intro hb
    refine (h4 ?_).1
    rw [List.all_eq_false]
    obtain ⟨b, hb⟩ := List.exists_mem_of_length_pos (Nat.pos_of_ne_zero hb)
    rw [List.mem_filter] at hb
    exact ⟨b, hb.1, by simpa using hb.2⟩

example := demoRefused.imp fun _ h => C122_results h.1

theorem accepted_len (c : MapF β) (bs : List Bool) (h : (c.calls bs).length = bs.length) : (accepted (c.calls bs)).length = bs.count true := by
  induction bs generalizing c with
  | nil => cases c <;> rfl
  | cons b bs ih =>
    cases c with
    | ret => simp [MapF.calls] at h
    | write v k =>
      simp only [MapF.calls, List.length_cons, Nat.add_right_cancel_iff] at h
      have := ih (k b) h
      cases b <;> simp [MapF.calls, accepted] at this ⊢ <;> exact this

/-- C122: at any time, cancelled or not, what has come out or waits in the channel is exactly what `Write` has accepted, the values of each mapping
in the order of its calls: a value comes out iff its `Write` reported `true`. The mappings are started in the order of the items. -/
theorem C122_accepted {items : List α} {F : α → MapF β} {size : Nat} {ctx : Option Err} {m : MRA α β} (h : ReachA items F size ctx m) :
    m.jobs.map (·.item) <+: items ∧ Interleaving (m.jobs.map fun j => accepted ((F j.item).calls j.results)) (m.out ++ m.collector.buf) := by
  have hc := cut_inv (reachA h)
  have e1 : (m.abs F).jobs.map (·.item) = m.jobs.map (·.item) := by simp [MRA.abs, JobA.abs, Function.comp_def]
  refine ⟨e1 ▸ (C120_cut (reachA h)).1, ?_⟩
  have e2 : (m.abs F).jobs.map (Job.sent fun x => (F x).all) = m.jobs.map fun j => accepted ((F j.item).calls j.results) := by
    simp only [MRA.abs, List.map_map]
    refine List.map_congr_left fun j hj => ?_
    obtain ⟨h1, h2, h3, h4, h5, h6⟩ := aok h j hj
    have hcnt : (j.abs F).results.count true = j.results.count true := by
      simp only [JobA.abs]
      split
      · rfl
      · simp [List.count_append, List.count_replicate, List.count_filter]
    simp only [Function.comp_apply, Job.sent, hcnt]
    rw [show (j.abs F).item = j.item from rfl, ← accepted_len _ _ h2]
    exact (List.prefix_iff_eq_take.1 h6).symm
  have := hc.out
  rw [e2] at this
  exact this

example := demoRefused.imp fun _ h => C122_accepted h.1

/-- C122: with one worker the output is always a prefix of the complete output. -/
theorem C122_cut_in_order {items : List α} {F : α → MapF β} {ctx : Option Err} {m : MRA α β} (h : ReachA items F 1 ctx m) :
    m.out ++ m.collector.buf <+: items.flatMap fun x => (F x).all := C120_cut_in_order (reachA h)

example := demoRefused.imp fun _ h => C122_cut_in_order h.1

/-- Returns as soon as a `Write` reports `false`. -/
def MapF.stops : MapF β → Prop
  | .ret => True
  | .write _ k => k false = .ret ∧ (k true).stops

/-- C122: a `mapFunc` that returns when a `Write` reports `false` makes at most one `Write` call that reports `false`. -/
theorem C122_stops {items : List α} {F : α → MapF β} {size : Nat} {ctx : Option Err} {m : MRA α β} (h : ReachA items F size ctx m)
    (hF : ∀ x, (F x).stops) : ∀ j ∈ m.jobs, j.results.count false ≤ 1 := by
  intro j hj
  have h2 := (aok h j hj).calls
  have key : ∀ (c : MapF β) (bs : List Bool), c.stops → (c.calls bs).length = bs.length → bs.count false ≤ 1 := by
    intro c bs
    induction bs generalizing c with
    | nil => simp
    | cons b bs ih =>
      cases c with
      | ret => intro _ hl; simp [MapF.calls] at hl
      | write v k =>
        intro hs hl
        simp only [MapF.calls, List.length_cons, Nat.add_right_cancel_iff] at hl
        cases b with
        | true => simpa using ih (k true) hs.2 hl
        | false =>
          rw [hs.1] at hl
          cases bs with
          | nil => simp
          | cons a bs => simp [MapF.calls] at hl
  exact key _ _ (hF j.item) h2

example := demoStops.imp fun _ h => C122_stops h.1 fun x => by simp [MapF.stops, MapF.upto]

/-! ## Closing, termination -/

/-- C122: the output is closed at most once and no panic ends the program. -/
theorem C122_closed_once {items : List α} {F : α → MapF β} {size : Nat} {ctx : Option Err} {m : MRA α β} (h : ReachA items F size ctx m) :
    m.closes ≤ 1 ∧ (m.closes = 1 ↔ m.collector.closed = true) ∧ m.crashed = false :=
  C16_closed_once (reachA h)

example := demoA.imp fun _ h => C122_closed_once h.1

/-- C122: while the context is not done, the closed output means that there is a mapping for every item and that all have returned, having
written everything. -/
theorem C122_all_finished {items : List α} {F : α → MapF β} {size : Nat} {ctx : Option Err} {m : MRA α β} (h : ReachA items F size ctx m)
    (hctx : m.ctx = none) (hc : m.collector.closed = true) :
    m.jobs.map (·.item) = items ∧ ∀ j ∈ m.jobs, (∃ e, j.d.gor = .ended (.returned e)) ∧ accepted ((F j.item).calls j.results) = (F j.item).all := by
  have hr := reachA h
  have hi := inv_reach hr
  have hfin := C16_all_finished_partial hr hctx hc
  have hpc : m.pc = .ended := by
    have := hi.closed
    rw [show (m.abs F).collector.closed = true from hc] at this
    change true = (match m.pc with | .ended => true | _ => false) at this
    cases hp : m.pc <;> rw [hp] at this <;> simp at this ⊢
  refine ⟨?_, fun j hj => ?_⟩
  · have ho := (cut_inv hr).order
    have hg := (C79_generator_partial hr hctx hc).1
    have e1 : (m.abs F).jobs.map (·.item) = m.jobs.map (·.item) := by simp [MRA.abs, JobA.abs, Function.comp_def]
    rw [hg, show (m.abs F).pc = .ended from hpc, e1] at ho
    simpa [Pc.items] using ho.symm
  · have hj' : j.abs F ∈ (m.abs F).jobs := List.mem_map.2 ⟨j, hj, rfl⟩
    obtain ⟨e, he⟩ := hfin.2 _ hj'
    refine ⟨⟨e, he⟩, ?_⟩
    obtain ⟨h1, h2, h3, h4, h5, h6⟩ := aok h j hj
    have hall : j.results.all id = true := by
      cases hr : j.results.all id with
      | true => rfl
      | false => exact absurd hctx (h4 hr).1
    have hw := (hi.jobs _ hj').ret e (.inr he)
    rw [abs_writes hall] at hw
    rw [MapF.calls_true _ _ hall h2, ← h1, hw, List.append_nil]

example := demoA.imp fun _ h => C122_all_finished h.1 h.2.1 (((inv_reach (reachA h.1)).drained h.2.2.1).1)

/-- C122: every execution is finite, whatever `mapFunc` does with refused `Write` calls: at most this many steps. -/
theorem C122_finite {items : List α} {F : α → MapF β} {size : Nat} {ctx : Option Err} {n : Nat} {m : MRA α β}
    (h : RunA F n (startA items size ctx) m) : n ≤ 6 + (items.map fun x => 12 + 3 * (F x).all.length + (F x).depth).sum := by
  have key : ReachA items F size ctx m ∧ n + weight (fun x => (F x).all) (m.abs F) + m.calls F ≤
      weight (fun x => (F x).all) ((startA items size ctx : MRA α β).abs F) + (startA items size ctx : MRA α β).calls F := by
    generalize hs0 : (startA items size ctx : MRA α β) = s at h
    induction h with
    | nil => subst hs0; exact ⟨.init, by omega⟩
    | snoc _ hs ih =>
      obtain ⟨h1, h2⟩ := ih hs0
      obtain ⟨k, hk, hlt⟩ := simA (aok h1) hs
      have h3 := (hk.reach (reachA h1)).2
      have h4 := calls_le hs
      exact ⟨h1.step hs, by omega⟩
  have h2 := key.2
  have hc : (startA items size ctx : MRA α β).calls F = (items.map fun x => (F x).depth).sum := by simp [MRA.calls, startA, Pc.items]
  have : weight (fun x => (F x).all) ((startA items size ctx : MRA α β).abs F) ≤ 6 + (items.map fun x => 12 + 3 * (F x).all.length).sum := by
    simp only [weight, MRA.abs, startA, pcW, Chan.make, List.map_nil, List.sum_nil, List.length_nil]
    by_cases hc : ctx = none <;> simp [hc] <;> omega
  have hsum : ∀ l : List α, (l.map fun x => 12 + 3 * (F x).all.length + (F x).depth).sum =
      (l.map fun x => 12 + 3 * (F x).all.length).sum + (l.map fun x => (F x).depth).sum := by
    intro l
    induction l with
    | nil => rfl
    | cons a l ih => simp only [List.map_cons, List.sum_cons, ih]; omega
  rw [hsum]
  omega

example : ∃ m : MRA Nat Nat, RunA reacting 2 (startA [1, 2] 1 none) m :=
  ⟨_, .snoc (.snoc (.nil _) (.handOver _ 1 [2] rfl rfl rfl)) (.add _ 1 rfl rfl)⟩

/-- C122: with a worker size of at least 1 and a consumer that keeps receiving, no state before the consumer has seen the end is stuck. With
`C122_finite`: the consumer always sees the end. -/
theorem C122_progress {items : List α} {F : α → MapF β} {size : Nat} (hsz : 1 ≤ size) {ctx : Option Err} {m : MRA α β} (h : ReachA items F size ctx m)
    (hd : m.drained = false) : ∃ m', StepA F m m' ∧ m'.ctx = m.ctx := by
  obtain ⟨m₁, h1, h2⟩ := C17_progress hsz (reachA h) hd
  obtain ⟨m', h3, ⟨h4, _⟩ | ⟨h4, _⟩⟩ := backA (aok h) h1
  · refine ⟨m', h3, ?_⟩
    subst h4; exact h2
  · exact ⟨m', h3, h4⟩

example := demoRefused.imp fun _ h => C122_progress (by decide) h.1 h.2.2.1

/-- No `mapFunc` has ended from one state to the next. -/
def StillRunningA (l l' : List (JobA α β)) : Prop :=
  ∀ (i : Nat) (j j' : JobA α β), l[i]? = some j → l'[i]? = some j' → j.d.gor = .running → j'.d.gor = .running

/-- C122: after cancellation the output gets closed without the help of the consumer, of the generator or of any `mapFunc`: until it is closed
there is always a step of none of them (no `mapFunc` goes on, returns or panics). -/
theorem C122_cancel_closes {items : List α} {F : α → MapF β} {size : Nat} (hsz : 1 ≤ size) {ctx : Option Err} {m : MRA α β}
    (h : ReachA items F size ctx m) (hx : m.ctx ≠ none) (hc : m.collector.closed = false) :
    ∃ m', StepA F m m' ∧ m'.out = m.out ∧ m'.gen = m.gen ∧ m.jobs.map (·.code) <+: m'.jobs.map (·.code) ∧ StillRunningA m.jobs m'.jobs := by
  obtain ⟨m₁, h1, h2, h3, h4, h5⟩ := C80_cancel_closes hsz (reachA h) hx hc
  obtain ⟨m', h6, ⟨rfl, h7⟩ | ⟨_, _, i, j, j₁, a1, a2, a3⟩⟩ := backA (aok h) h1
  · refine ⟨m', h6, h2, h3, h7, ?_⟩
    intro i j j' g1 g2 g3
    exact h5 i (j.abs F) (j'.abs F) (by simp [MRA.abs, g1]) (by simp [MRA.abs, g2]) g3
  · exfalso
    rcases a3 with a3 | ⟨a3, a4⟩
    · have e1 : ((m.abs F).jobs.map (·.writes))[i]? = some j.writes := by simp [a1]
      have e2 : (m₁.jobs.map (·.writes))[i]? = some j₁.writes := by simp [a2]
      obtain ⟨t, ht⟩ := h4
      rw [← ht, List.getElem?_append_left (List.getElem?_eq_some_iff.1 e1).1, e1] at e2
      simp only [Option.some.injEq] at e2
      rw [e2] at a3; omega
    · exact a4 (h5 i j j₁ a1 a2 a3)

example := demoRefused.imp fun _ h => C122_cancel_closes (by decide) h.1 h.2.1 h.2.2.2.1

/-- `Model.lean` is the special case of programs that do not look at the results. -/
def MapF.ofList : List β → MapF β
  | [] => .ret
  | v :: vs => .write v fun _ => ofList vs

theorem C122_lists (l : List β) : (MapF.ofList l).all = l ∧ (MapF.ofList l).depth = l.length ∧ (MapF.upto l).all = l ∧ (MapF.upto l).stops := by
  induction l with
  | nil => exact ⟨rfl, rfl, rfl, trivial⟩
  | cons v vs ih => simp [MapF.ofList, MapF.all, MapF.depth, MapF.upto, MapF.stops, ih]; omega

example : (MapF.upto [1, 2]).all = [1, 2] ∧ (reacting 3).all = [30, 31] := ⟨(C122_lists [1, 2]).2.2.1, rfl⟩

end Verif.XMapReduce

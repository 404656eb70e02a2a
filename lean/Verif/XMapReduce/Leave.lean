import Verif.XMapReduce.GenStop
/-!
# A consumer of `xmapreduce.Map` that stops receiving

`Map` returns a channel. A consumer may stop receiving from it at any time, say because it has found what it wanted. What becomes of the
goroutines that `Map` has started? Here are the states in which nothing more happens by itself, that is, unless the consumer receives
again or the context becomes done.
-/
namespace Verif.XMapReduce
open Verif.Go Verif.XTask Verif.XStream

variable {α β : Type}

/-! ## Specification -/

/-- In `m` nothing more happens unless the consumer receives again or the context becomes done. -/
def Quiet (f : α → List β) (m : MR α β) : Prop :=
  ∀ m', Step f m m' → m'.ctx ≠ m.ctx ∨ m'.out ≠ m.out ∨ m'.drained ≠ m.drained

/-- `Quiet` for a `generateFunc` that watches the context (`StepG`). -/
def QuietG (f : α → List β) (m : MR α β) : Prop :=
  ∀ m', StepG f m m' → m'.ctx ≠ m.ctx ∨ m'.out ≠ m.out ∨ m'.drained ≠ m.drained

/-- The goroutines of one accepted `worker.Run` have ended: that of the worker has left `Do` and its slot, that of `mapFunc` has ended or was
never started (xworker.go:38-46, do.go:33-50). -/
def Job.over (j : Job α β) : Prop := (∃ o, j.d.caller = .left o) ∧ (j.d.gor = .none ∨ ∃ o, j.d.gor = .ended o)

/-- `mapFunc` is waiting in `Write` (writebarrier.go:49) for room in a channel that is full, and its worker for it. -/
def Job.blocked (m : MR α β) (j : Job α β) : Prop :=
  j.d.caller = .wait ∧ j.d.gor = .running ∧ j.sending = true ∧ ∃ v vs, j.writes = v :: vs ∧ m.collector.send v = .blocked

/-! ## Lemmas -/

theorem send_blocked {γ : Type} {c : Chan γ} {v : γ} (h : c.send v = .blocked) : c.closed = false ∧ c.cap ≤ c.buf.length := by
  unfold Chan.send at h
  split at h
  · simp at h
  · split at h
    · simp at h
    · exact ⟨by simp_all, by omega⟩

/-- A job where nothing more happens by itself. -/
theorem quiet_job {items : List α} {f : α → List β} {size : Nat} {m : MR α β} (hi : Inv items f size m) (hq : Quiet f m) {j : Job α β} (hj : j ∈ m.jobs) :
    j.over ∨ j.d.gor = .running ∧ j.sending = true ∧ (∃ v vs, j.writes = v :: vs ∧ m.collector.send v = .blocked) ∧
      ((∃ o, j.d.caller = .left o) ∧ m.ctx ≠ none ∨ j.d.caller = .wait ∧ m.ctx = none) := by
  have hcr := hi.crashed
  have hji := hi.jobs j hj
  obtain ⟨c0, hr⟩ := hji.reach
  have hd := do_inv hr
  obtain ⟨l₁, l₂, hsp⟩ := List.append_of_mem hj
  have no : ∀ m', Step f m m' → m'.ctx = m.ctx → m'.out = m.out → m'.drained = m.drained → False := by
    intro m' hs h1 h2 h3
    rcases hq m' hs with h | h | h
    · exact h h1
    · exact h h2
    · exact h h3
  have hgor : (j.d.gor = .none ∨ ∃ o, j.d.gor = .ended o) ∨
      j.d.gor = .running ∧ j.sending = true ∧ ∃ v vs, j.writes = v :: vs ∧ m.collector.send v = .blocked := by
    cases hg : j.d.gor with
    | none => exact .inl (.inl rfl)
    | ended o => exact .inl (.inr ⟨o, rfl⟩)
    | finished o =>
      exfalso
      cases o with
      | returned e =>
        exact no _ (.doStep m l₁ l₂ j _ hcr hsp (.deliverRet _ e _ hg (by simp [Chan.send, hd.capD.1, hd.capD.2, (hd.pending _ (Or.inr hg)).1]; rfl)) rfl
          (fun o ho => by simpa using ho) (by simp)) rfl rfl rfl
      | panicked p =>
        exact no _ (.doStep m l₁ l₂ j _ hcr hsp (.deliverPanic _ p _ hg (by simp [Chan.send, hd.capP.1, hd.capP.2, (hd.pending _ (Or.inr hg)).2]; rfl)) rfl
          (fun o ho => by simpa using ho) (by simp)) rfl rfl rfl
      | exited => exact hji.exited.1 hg
    | running =>
      right
      cases hw : j.writes with
      | nil => exact (no _ (.mapReturn m l₁ l₂ j _ hcr hsp hg hw (.finish _ (.returned .nil) hg) rfl) rfl rfl rfl).elim
      | cons v vs =>
        cases hsn : j.sending with
        | false =>
          exfalso
          by_cases hx : m.ctx = none
          · exact no _ (.writeGo m l₁ l₂ j v vs hcr hsp hg hw hsn hx) rfl rfl rfl
          · exact no _ (.writeDone m l₁ l₂ j v vs hcr hsp hg hw hsn hx) rfl rfl rfl
        | true =>
          cases hsd : m.collector.send v with
          | sent c => exact (no _ (.writeSent m l₁ l₂ j v vs c hcr hsp hg hw hsn hsd) rfl rfl rfl).elim
          | panic => exact (no _ (.writePanic m l₁ l₂ j v vs _ hcr hsp hg hw hsn hsd (.finish _ (.panicked ()) hg) rfl) rfl rfl rfl).elim
          | blocked => exact ⟨rfl, rfl, v, vs, rfl, hsd⟩
  have hcal : (∃ o, j.d.caller = .left o) ∨ j.d.caller = .wait ∧ m.ctx = none ∧ j.d.gor = .running := by
    cases hc : j.d.caller with
    | left o => exact .inl ⟨o, rfl⟩
    | entry =>
      exfalso
      cases hx : j.d.ctx with
      | none => exact no _ (.doStep m l₁ l₂ j _ hcr hsp (.entryGo _ hc hx) rfl (by simp) (fun o ho => by simpa using ho)) rfl rfl rfl
      | some e => exact no _ (.doStep m l₁ l₂ j _ hcr hsp (.entryDone _ e hc hx) rfl (by simp) (fun o ho => by simpa using ho)) rfl rfl rfl
    | spawn => exact (no _ (.doStep m l₁ l₂ j _ hcr hsp (.spawn _ hc) rfl (by simp) (by simp)) rfl rfl rfl).elim
    | leave o =>
      exfalso
      cases hdf : j.deferred with
      | false => exact no _ (.done m l₁ l₂ j o hcr hsp hc hdf) rfl rfl rfl
      | true =>
        have hpos : 0 < m.jobs.countP occupies := by
          rw [List.countP_pos_iff]; exact ⟨_, hj, by simp [occupies, Caller.gone, hc]⟩
        rw [← hi.slots.1] at hpos
        cases hb : m.slots.buf with
        | nil => rw [hb] at hpos; simp at hpos
        | cons u t => exact no _ (.release m l₁ l₂ j o _ _ hcr hsp hc hdf (by simp [Chan.recv, hb]; rfl) (.leave _ o hc) rfl) rfl rfl rfl
    | wait =>
      right
      have hx : j.d.ctx = none := by
        cases hx : j.d.ctx with
        | none => rfl
        | some e => exact (no _ (.doStep m l₁ l₂ j _ hcr hsp (.recvCtx _ e hc hx) rfl (by simp) (fun o ho => by simpa using ho)) rfl rfl rfl).elim
      refine ⟨rfl, hji.ctxEq.symm.trans hx, ?_⟩
      rcases hgor with (hg | ⟨o, hg⟩) | hg
      · exact absurd hg (hd.wait hc)
      · exfalso
        cases o with
        | returned e =>
          exact (no _ (.doStep m l₁ l₂ j _ hcr hsp (.recvDone _ e _ hc (by simp [Chan.recv, (hd.keep _ hc hg).1 e rfl]; rfl)) rfl (by simp)
            (fun o ho => by simpa using ho)) rfl rfl rfl).elim
        | panicked p =>
          exact (no _ (.doStep m l₁ l₂ j _ hcr hsp (.recvPanic _ p _ hc (by simp [Chan.recv, (hd.keep _ hc hg).2 p rfl]; rfl)) rfl (by simp)
            (fun o ho => by simpa using ho)) rfl rfl rfl).elim
        | exited => exact hji.exited.2 hg
      · exact hg.1
  rcases hgor with hg | ⟨hg, hsn, hb⟩
  · left
    rcases hcal with hl | ⟨_, _, hr⟩
    · exact ⟨hl, hg⟩
    · rcases hg with hg | ⟨o, hg⟩ <;> rw [hr] at hg <;> simp at hg
  · right
    refine ⟨hg, hsn, hb, ?_⟩
    rcases hcal with ⟨o, ho⟩ | ⟨hw, hx, _⟩
    · refine .inl ⟨⟨o, ho⟩, fun hx => ?_⟩
      rcases hd.out o (.inr ho) with ⟨e, _, h' | h'⟩ | ⟨p, _, h'⟩
      · rw [hji.ctxEq, hx] at h'; simp at h'
      · rw [hg] at h'; simp at h'
      · rw [hg] at h'; simp at h'
    · exact .inr ⟨hw, hx⟩

/-- Where nothing more happens by itself and every worker has left its slot, `doMap` has returned, or it waits for a generator that has
nothing more to do — which there is not. -/
theorem quiet_ended {items : List α} {f : α → List β} {size : Nat} (hsz : 1 ≤ size) {m : MR α β} (hi : Inv items f size m) (hq : Quiet f m)
    (hleft : ∀ j ∈ m.jobs, ∃ o, j.d.caller = .left o) : m.pc = .ended ∧ m.collector.closed = true ∧ (m.gen = [] → m.srcClosed = true) := by
  have hcr := hi.crashed
  have no : ∀ m', Step f m m' → m'.ctx = m.ctx → m'.out = m.out → m'.drained = m.drained → False := by
    intro m' hs h1 h2 h3
    rcases hq m' hs with h | h | h
    · exact h h1
    · exact h h2
    · exact h h3
  have hsrc : m.gen = [] → m.srcClosed = true := by
    intro hg
    cases hs : m.srcClosed with
    | true => rfl
    | false => exact (no _ (.closeSource m hcr hg hs) rfl rfl rfl).elim
  have hz : m.slots.buf.length = 0 := by
    rw [hi.slots.1, List.countP_eq_zero]
    intro j hj
    obtain ⟨o, ho⟩ := hleft j hj
    simp [occupies, ho, Caller.gone]
  have hwg : m.wg = (m.pc.running : Int) := by
    have : m.jobs.countP notDeferred = 0 := by
      rw [List.countP_eq_zero]
      intro j hj
      obtain ⟨o, ho⟩ := hleft j hj
      simp [notDeferred, (hi.jobs j hj).left o ho]
    rw [hi.wg, this]; simp
  have hpc : m.pc = .ended := by
    cases hp : m.pc with
    | ended => rfl
    | select =>
      exfalso
      cases hg : m.gen with
      | nil => exact no _ (.selectClosed m hcr hp (hsrc hg)) rfl rfl rfl
      | cons x xs => exact no _ (.handOver m x xs hcr hg hp) rfl rfl rfl
    | add x => exact (no _ (.add m x hcr hp) rfl rfl rfl).elim
    | run x =>
      have hsd : m.slots.send () = .sent { m.slots with buf := m.slots.buf ++ [()] } := by
        have h1 := hi.slots.2.1
        simp [Chan.send, hi.slots.2.2.1, hz, h1, show 0 < size by omega]
      exact (no _ (.run m x _ hcr hp hsd) rfl rfl rfl).elim
    | wait => exact (no _ (.waited m hcr hp (by rw [hwg, hp]; rfl)) rfl rfl rfl).elim
    | close => exact (no _ (.close m hcr hp) rfl rfl rfl).elim
  refine ⟨hpc, ?_, hsrc⟩
  rw [hi.closed, hpc]

theorem quiet_cancelled {items : List α} {f : α → List β} {size : Nat} (hsz : 1 ≤ size) {m : MR α β} (hi : Inv items f size m) (hq : Quiet f m)
    (hx : m.ctx ≠ none) : m.pc = .ended ∧ m.collector.closed = true ∧ (m.gen = [] → m.srcClosed = true) ∧ ∀ j ∈ m.jobs, j.over := by
  have hleft : ∀ j ∈ m.jobs, ∃ o, j.d.caller = .left o := by
    intro j hj
    rcases quiet_job hi hq hj with h | ⟨_, _, _, h | h⟩
    · exact h.1
    · exact h.1
    · exact absurd h.2 hx
  obtain ⟨h1, h2, h3⟩ := quiet_ended hsz hi hq hleft
  refine ⟨h1, h2, h3, fun j hj => ?_⟩
  rcases quiet_job hi hq hj with h | ⟨_, _, ⟨v, vs, _, hb⟩, _⟩
  · exact h
  · rw [(send_blocked hb).1] at h2; simp at h2

/-- The same with a `generateFunc` that watches the context. -/
theorem comes_to_restG {items : List α} {f : α → List β} {size : Nat} {ctx : Option Err} : ∀ (n : Nat) (m : MR α β), weight f m ≤ n → ReachG items f size ctx m →
    ∃ m' : MR α β, ReachG items f size ctx m' ∧ m'.ctx = m.ctx ∧ m'.out = m.out ∧ QuietG f m' := by
  intro n
  induction n with
  | zero =>
    intro m hw h
    refine ⟨m, h, rfl, rfl, fun m'' hs => ?_⟩
    obtain ⟨a, ha, hl⟩ := reachG_like h
    have := (like_step ha hl hs).2
    omega
  | succ n ih =>
    intro m hw h
    by_cases hst : QuietG f m
    · exact ⟨m, h, rfl, rfl, hst⟩
    · simp only [QuietG, not_forall, not_or, not_not] at hst
      obtain ⟨m'', hs, e1, e2, e3⟩ := hst
      obtain ⟨a, ha, hl⟩ := reachG_like h
      have := (like_step ha hl hs).2
      obtain ⟨m', h1, h2, h3, h4⟩ := ih m'' (by omega) (h.step hs)
      exact ⟨m', h1, h2.trans e1, h3.trans e2, h4⟩

/-! ## The theorems -/

/-- C137: from wherever the consumer stops receiving, the program comes to a state in which nothing more happens by itself (after at most as many
steps as C17_finite allows, whatever the schedule). -/
theorem C137_comes_to_rest {items : List α} {f : α → List β} {size : Nat} {ctx : Option Err} {m : MR α β} (h : Reach items f size ctx m) :
    ∃ (n : Nat) (m' : MR α β), RunN f n m m' ∧ m'.ctx = m.ctx ∧ m'.out = m.out ∧ m'.drained = m.drained ∧ Quiet f m' := by
  have key : ∀ (n : Nat) (m' : MR α β) (k : Nat), weight f m' ≤ n → Reach items f size ctx m' → RunN f k m m' → m'.ctx = m.ctx → m'.out = m.out → m'.drained = m.drained →
      ∃ (n : Nat) (m' : MR α β), RunN f n m m' ∧ m'.ctx = m.ctx ∧ m'.out = m.out ∧ m'.drained = m.drained ∧ Quiet f m' := by
    intro n
    induction n with
    | zero =>
      intro m' k hw hr hrun h1 h2 h3
      exact ⟨k, m', hrun, h1, h2, h3, fun m'' hs => absurd (step_weight (inv_reach hr) hs) (by omega)⟩
    | succ n ih =>
      intro m' k hw hr hrun h1 h2 h3
      by_cases hst : Quiet f m'
      · exact ⟨k, m', hrun, h1, h2, h3, hst⟩
      · simp only [Quiet, not_forall, not_or, not_not] at hst
        obtain ⟨m'', hs, e1, e2, e3⟩ := hst
        have := step_weight (inv_reach hr) hs
        exact ih m'' (k + 1) (by omega) (hr.step hs) (.snoc hrun hs) (e1.trans h1) (e2.trans h2) (e3.trans h3)
  exact key _ m 0 (Nat.le_refl _) h (.nil m) rfl rfl rfl

theorem RunN.reach' {items : List α} {f : α → List β} {size : Nat} {ctx : Option Err} {n : Nat} {m m' : MR α β} (hr : RunN f n m m')
    (h : Reach items f size ctx m) : Reach items f size ctx m' := by
  induction hr with
  | nil => exact h
  | snoc _ hs ih => exact (ih h).step hs

/-- The consumer receives nothing; the mapping writes two values, the channel has room for one. -/
theorem demoTooMany : ∃ m : MR Nat Nat, Reach [1] (fun x => [10 * x, 11 * x]) 1 none m ∧ m.ctx = none ∧ m.out = [] ∧ Quiet (fun x => [10 * x, 11 * x]) m := by
  obtain ⟨n, m, hr, h1, h2, _, h4⟩ := C137_comes_to_rest (items := [1]) (f := fun x : Nat => [10 * x, 11 * x]) (size := 1) (ctx := none) .init
  exact ⟨m, hr.reach' .init, h1, h2, h4⟩

/-- There the context becomes done. -/
theorem demoLeaves : ∃ m : MR Nat Nat, Reach [1] (fun x => [10 * x, 11 * x]) 1 none m ∧ m.ctx ≠ none ∧ m.out = [] ∧ Quiet (fun x => [10 * x, 11 * x]) m := by
  obtain ⟨m, h, hx, ho, _⟩ := demoTooMany
  have h1 := h.step (.cancel _ (inv_reach h).crashed hx)
  obtain ⟨n, m', hr, e1, e2, _, e4⟩ := C137_comes_to_rest h1
  exact ⟨m', hr.reach' h1, by rw [e1]; simp, e2.trans ho, e4⟩

/-- C137: the context is not done. If what the mappings write beyond what the consumer has received fits in the output channel, everything ends: the
generator has returned, `doMap` has closed the output, all workers and mappings have ended, and all values not received are in the channel. -/
theorem C137_fits {items : List α} {f : α → List β} {size : Nat} (hsz : 1 ≤ size) {ctx : Option Err} {m : MR α β} (h : Reach items f size ctx m)
    (hx : m.ctx = none) (hq : Quiet f m) (hfit : (items.flatMap f).length ≤ m.out.length + size) :
    m.gen = [] ∧ m.srcClosed = true ∧ m.pc = .ended ∧ m.collector.closed = true ∧ (∀ j ∈ m.jobs, j.over) ∧ (m.out ++ m.collector.buf).Perm (items.flatMap f) := by
  have hi := inv_reach h
  have hover : ∀ j ∈ m.jobs, j.over := by
    intro j hj
    rcases quiet_job hi hq hj with h | ⟨_, _, ⟨v, vs, hw, hb⟩, _⟩
    · exact h
    · exfalso
      have h1 := hi.countEq hx (fun _ => true)
      have h2 := (send_blocked hb).2
      rw [hi.coll.1] at h2
      obtain ⟨l₁, l₂, hsp⟩ := List.append_of_mem hj
      have h3 : 1 ≤ pend (fun _ => true) m.jobs := by simp [pend, hsp, hw]; omega
      simp only [List.countP_true] at h1
      omega
  obtain ⟨h1, h2, h3⟩ := quiet_ended hsz hi hq fun j hj => (hover j hj).1
  have hg : m.gen = [] := (C79_generator_partial h hx h2).1
  refine ⟨hg, h3 hg, h1, h2, hover, ?_⟩
  have hz : ∀ p : β → Bool, pend p m.jobs = 0 := by
    intro p
    rw [pend, List.sum_eq_zero_iff_forall_eq_nat]
    intro n hn
    obtain ⟨j, hj, rfl⟩ := List.mem_map.1 hn
    obtain ⟨o, ho⟩ := (hover j hj).1
    rw [(left_written hi hx hj ((hi.jobs j hj).left o ho)).1]; rfl
  classical
  rw [List.perm_iff_count]
  intro v
  have := hi.countEq hx (· == v)
  rw [hz, h1, hg] at this
  simp only [Pc.items, List.flatMap_nil, List.countP_nil] at this
  simp only [List.count, List.countP_append]
  omega

example : ∃ m : MR Nat Nat, Reach [1, 2] (fun x => [10 * x]) 2 none m ∧ m.out = [] ∧ m.collector.closed = true ∧ m.collector.buf.Perm [10, 20] := by
  obtain ⟨n, m, hr, h1, h2, _, h4⟩ := C137_comes_to_rest (items := [1, 2]) (f := fun x : Nat => [10 * x]) (size := 2) (ctx := none) .init
  have h2' : m.out = [] := h2
  have := C137_fits (by decide) (hr.reach' .init) h1 h4 (by simp)
  exact ⟨m, hr.reach' .init, h2', this.2.2.2.1, by simpa [h2'] using this.2.2.2.2.2⟩

/-- C137: the context is not done. If it does not fit, `Map` is left as it is for ever: the output stays open and full, at least one mapping waits in `Write`,
every worker that has not ended waits for such a mapping, and `doMap` has not returned. -/
theorem C137_too_many {items : List α} {f : α → List β} {size : Nat} (hsz : 1 ≤ size) {ctx : Option Err} {m : MR α β} (h : Reach items f size ctx m)
    (hx : m.ctx = none) (hq : Quiet f m) (hmany : m.out.length + size < (items.flatMap f).length) :
    m.collector.closed = false ∧ m.collector.buf.length = size ∧ m.pc ≠ .ended ∧ (∃ j ∈ m.jobs, j.blocked m) ∧ ∀ j ∈ m.jobs, j.over ∨ j.blocked m := by
  have hi := inv_reach h
  have hall : ∀ j ∈ m.jobs, j.over ∨ j.blocked m := by
    intro j hj
    rcases quiet_job hi hq hj with h | ⟨h1, h2, h3, h4 | h4⟩
    · exact .inl h
    · exact absurd hx h4.2
    · exact .inr ⟨h4.1, h1, h2, h3⟩
  have hex : ∃ j ∈ m.jobs, j.blocked m := by
    by_contra hno
    have hover : ∀ j ∈ m.jobs, j.over := fun j hj => (hall j hj).resolve_right fun hb => hno ⟨j, hj, hb⟩
    obtain ⟨h1, h2, h3⟩ := quiet_ended hsz hi hq fun j hj => (hover j hj).1
    have hg : m.gen = [] := (C79_generator_partial h hx h2).1
    have hz : pend (fun _ => true) m.jobs = 0 := by
      rw [pend, List.sum_eq_zero_iff_forall_eq_nat]
      intro n hn
      obtain ⟨j, hj, rfl⟩ := List.mem_map.1 hn
      obtain ⟨o, ho⟩ := (hover j hj).1
      rw [(left_written hi hx hj ((hi.jobs j hj).left o ho)).1]; rfl
    have := hi.countEq hx (fun _ => true)
    rw [hz, h1, hg] at this
    simp only [Pc.items, List.flatMap_nil, List.countP_nil, List.countP_true] at this
    have := hi.coll.2
    omega
  obtain ⟨j, hj, hb⟩ := hex
  obtain ⟨_, _, _, v, vs, _, hsd⟩ := id hb
  obtain ⟨hc, hl⟩ := send_blocked hsd
  rw [hi.coll.1] at hl
  refine ⟨hc, by have := hi.coll.2; omega, fun hp => ?_, ⟨j, hj, hb⟩, hall⟩
  have := hi.closed
  rw [hp, hc] at this
  simp at this

example := demoTooMany.imp fun _ h => C137_too_many (by decide) h.1 h.2.1 h.2.2.2 (by rw [h.2.2.1]; decide)

/-- C137: the context is done. Then everything that `Map` has started ends, however much the mappings have still to write, but for the generator: `doMap` has
closed the output and returned, all workers and all mappings have ended. What is left is a generator with something to send (C79), and nothing
else. -/
theorem C137_cancelled {items : List α} {f : α → List β} {size : Nat} (hsz : 1 ≤ size) {ctx : Option Err} {m : MR α β} (h : Reach items f size ctx m)
    (hx : m.ctx ≠ none) (hq : Quiet f m) :
    m.pc = .ended ∧ m.collector.closed = true ∧ (m.gen = [] → m.srcClosed = true) ∧ ∀ j ∈ m.jobs, j.over :=
  quiet_cancelled hsz (inv_reach h) hq hx

example := demoLeaves.imp fun _ h => C137_cancelled (by decide) h.1 h.2.1 h.2.2.2

/-- C137: with a `generateFunc` that watches the context (C135), nothing at all is left behind by a consumer that stops receiving and ends the context. -/
theorem C137_watching {items : List α} {f : α → List β} {size : Nat} (hsz : 1 ≤ size) {ctx : Option Err} {m : MR α β} (h : ReachG items f size ctx m)
    (hx : m.ctx ≠ none) (hq : QuietG f m) :
    m.gen = [] ∧ m.srcClosed = true ∧ m.pc = .ended ∧ m.collector.closed = true ∧ ∀ j ∈ m.jobs, j.over := by
  obtain ⟨a, ha, hl⟩ := reachG_like h
  have hi := inv_reach ha
  have hqa : Quiet f a := by
    intro a' hs
    by_contra hno
    simp only [not_or, not_not] at hno
    obtain ⟨m', hs', e1, e2, e3⟩ := like_back hl hs hno.1
    rcases hq m' hs' with h | h | h
    · exact h e1
    · exact h (e2 hno.2.1)
    · exact h (e3 hno.2.2)
  have hcr : m.crashed = false := by rcases hl with rfl | ⟨_, _, g, _, rfl⟩ <;> exact hi.crashed
  have hxa : a.ctx ≠ none := by rcases hl with rfl | ⟨_, _, g, _, rfl⟩ <;> exact hx
  have no : ∀ m', StepG f m m' → m'.ctx = m.ctx → m'.out = m.out → m'.drained = m.drained → False := by
    intro m' hs h1 h2 h3
    rcases hq m' hs with h | h | h
    · exact h h1
    · exact h h2
    · exact h h3
  have hg : m.gen = [] := by
    by_contra hg
    exact no _ (.giveUp m hcr hx hg) rfl rfl rfl
  have hsr : m.srcClosed = true := by
    cases hs : m.srcClosed with
    | true => rfl
    | false => exact (no _ (.step (.closeSource m hcr hg hs)) rfl rfl rfl).elim
  obtain ⟨h1, h2, _, h4⟩ := quiet_cancelled hsz hi hqa hxa
  rcases hl with rfl | ⟨_, _, g, _, rfl⟩
  · exact ⟨hg, hsr, h1, h2, h4⟩
  · exact ⟨hg, hsr, h1, h2, h4⟩

example : ∃ m : MR Nat Nat, ReachG [1, 2] (fun x => [10 * x]) 1 none m ∧ m.ctx ≠ none ∧ m.out = [] ∧ QuietG (fun x => [10 * x]) m :=
  have h := (ReachG.init (items := [1, 2]) (f := fun x : Nat => [10 * x]) (size := 1) (ctx := none)).step (.step (.cancel _ rfl rfl))
  (comes_to_restG _ _ (Nat.le_refl _) h).imp fun _ h => ⟨h.1, by rw [h.2.1]; simp, h.2.2.1, h.2.2.2⟩

end Verif.XMapReduce

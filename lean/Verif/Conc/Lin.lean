import Mathlib.Tactic.Common
import Mathlib.Data.List.Nodup
/-!
# Linearizability

`Linearizable` is the usual definition (Herlihy and Wing) for histories of invocations and responses. The rest of the
file is a proof method: a ghost automaton in which every operation either *commits* (takes effect) at some instant
between its invocation and its response, possibly with the help of another goroutine, or has a result that an
unchanging operation would have had at some instant in that interval. Every history of the ghost automaton is
linearizable, so it suffices to simulate a concurrent program by the ghost automaton.
-/
namespace Verif.Conc

/-- A sequential specification: `step s op r s'` – in state `s` the operation `op` may return `r` and leave `s'`. -/
structure Spec (σ Op Res : Type) where
  init : σ
  step : σ → Op → Res → σ → Prop

/-- Events of a history; every operation instance has its own number. -/
inductive Ev (Op Res : Type) where
  | inv (i : Nat) (op : Op)
  | ret (i : Nat) (r : Res)

variable {σ Op Res : Type}

/-- Legal sequential executions. -/
inductive Runs (S : Spec σ Op Res) : σ → List (Nat × Op × Res) → σ → Prop where
  | nil (s : σ) : Runs S s [] s
  | cons {s s' s'' : σ} {i : Nat} {op : Op} {r : Res} {l : List (Nat × Op × Res)} :
      S.step s op r s' → Runs S s' l s'' → Runs S s ((i, op, r) :: l) s''

/-- In the history, operation `a` returned before operation `b` was invoked. -/
def Before (H : List (Ev Op Res)) (a b : Nat) : Prop :=
  ∃ H₁ H₂ r op, H = H₁ ++ H₂ ∧ Ev.ret a r ∈ H₁ ∧ Ev.inv b op ∈ H₂

/-- Linearizability: some sequential order of operations that were invoked, containing all operations that returned,
with the results they returned, is legal and respects the real-time order. -/
def Linearizable (S : Spec σ Op Res) (H : List (Ev Op Res)) : Prop :=
  ∃ L : List (Nat × Op × Res), (L.map (·.1)).Nodup ∧
    (∀ x ∈ L, Ev.inv x.1 x.2.1 ∈ H) ∧
    (∀ i r, Ev.ret i r ∈ H → ∃ op, (i, op, r) ∈ L) ∧
    (∃ s, Runs S S.init L s) ∧
    L.Pairwise (fun x y => ¬ Before H y.1 x.1)

/-! ## The ghost automaton -/

/-- Proof only: how far a call has come: not called, called, taken effect, returned. -/
inductive Status (Op Res : Type) where
  | idle
  | invoked (op : Op)
  | committed (op : Op) (r : Res)
  | done

/-- Function update. -/
def upd {α : Type} (f : Nat → α) (i : Nat) (x : α) : Nat → α := fun j => if j = i then x else f j

@[simp] theorem upd_same {α : Type} (f : Nat → α) (i : Nat) (x : α) : upd f i x i = x := by simp [upd]
theorem upd_ne {α : Type} (f : Nat → α) {i j : Nat} (x : α) (h : j ≠ i) : upd f i x j = f j := by simp [upd, h]

/-- Proof only: the abstract object beside the program: its state, the status of the calls, and the log of the effects. -/
structure Ghost (σ Op Res : Type) where
  hist : List (Ev Op Res)
  /-- the committed operations, in order -/
  log : List (Nat × Op × Res)
  /-- the abstract state after `k` commits, for `k ≤ log.length` -/
  at' : Nat → σ
  st : Nat → Status Op Res
  /-- number of commits when the operation was invoked -/
  start : Nat → Nat
  /-- number of commits when the operation returned -/
  fin : Nat → Option Nat
  /-- returned operations that never committed: instant, id, operation, result -/
  reads : List (Nat × Nat × Op × Res)

/-- The current abstract state. -/
def Ghost.cur (g : Ghost σ Op Res) : σ := g.at' g.log.length

/-- Proof only: the abstract object at the start. -/
def Ghost.init (S : Spec σ Op Res) : Ghost σ Op Res :=
  ⟨[], [], fun _ => S.init, fun _ => .idle, fun _ => 0, fun _ => none, []⟩

/-- Effect of an invocation. -/
def Ghost.invoke (g : Ghost σ Op Res) (i : Nat) (op : Op) : Ghost σ Op Res :=
  { g with hist := g.hist ++ [.inv i op], st := upd g.st i (.invoked op), start := upd g.start i g.log.length }

/-- Effect of a commit. -/
def Ghost.commit (g : Ghost σ Op Res) (i : Nat) (op : Op) (r : Res) (s' : σ) : Ghost σ Op Res :=
  { g with log := g.log ++ [(i, op, r)], at' := upd g.at' (g.log.length + 1) s', st := upd g.st i (.committed op r) }

/-- Effect of returning from a committed operation. -/
def Ghost.retC (g : Ghost σ Op Res) (i : Nat) (r : Res) : Ghost σ Op Res :=
  { g with hist := g.hist ++ [.ret i r], st := upd g.st i .done, fin := upd g.fin i (some g.log.length) }

/-- Effect of returning from an operation that read at instant `k`. -/
def Ghost.retR (g : Ghost σ Op Res) (i k : Nat) (op : Op) (r : Res) : Ghost σ Op Res :=
  { g with hist := g.hist ++ [.ret i r], st := upd g.st i .done, fin := upd g.fin i (some g.log.length),
           reads := g.reads ++ [(k, i, op, r)] }

/-- At some instant since the invocation of `i`, the operation `op` would have returned `r` without changing anything. -/
def Ghost.Saw (S : Spec σ Op Res) (g : Ghost σ Op Res) (i : Nat) (op : Op) (r : Res) : Prop :=
  ∃ k, g.start i ≤ k ∧ k ≤ g.log.length ∧ S.step (g.at' k) op r (g.at' k)

/-- Proof only: what can happen to the abstract object. -/
inductive GStep (S : Spec σ Op Res) : Ghost σ Op Res → Ghost σ Op Res → Prop where
  | invoke (g : Ghost σ Op Res) (i : Nat) (op : Op) : g.st i = .idle → GStep S g (g.invoke i op)
  | commit (g : Ghost σ Op Res) (i : Nat) (op : Op) (r : Res) (s' : σ) :
      g.st i = .invoked op → S.step g.cur op r s' → GStep S g (g.commit i op r s')
  | retC (g : Ghost σ Op Res) (i : Nat) (op : Op) (r : Res) : g.st i = .committed op r → GStep S g (g.retC i r)
  | retR (g : Ghost σ Op Res) (i k : Nat) (op : Op) (r : Res) : g.st i = .invoked op →
      g.start i ≤ k → k ≤ g.log.length → S.step (g.at' k) op r (g.at' k) → GStep S g (g.retR i k op r)

/-- Proof only: what can become of the abstract object. -/
inductive GReach (S : Spec σ Op Res) : Ghost σ Op Res → Prop where
  | init : GReach S (Ghost.init S)
  | step {g g' : Ghost σ Op Res} : GReach S g → GStep S g g' → GReach S g'

/-! ## Invariant of the ghost automaton -/

/-- Proof only: invariant of the abstract object. -/
structure GInv (S : Spec σ Op Res) (g : Ghost σ Op Res) : Prop where
  init : g.at' 0 = S.init
  legal : ∀ k i op r, g.log[k]? = some (i, op, r) → S.step (g.at' k) op r (g.at' (k + 1))
  readLegal : ∀ k i op r, (k, i, op, r) ∈ g.reads → k ≤ g.log.length ∧ S.step (g.at' k) op r (g.at' k)
  logTime : ∀ k i op r, g.log[k]? = some (i, op, r) → g.start i ≤ k ∧ ∀ f, g.fin i = some f → k < f
  readTime : ∀ k i op r, (k, i, op, r) ∈ g.reads → g.start i ≤ k ∧ ∀ f, g.fin i = some f → k ≤ f
  startLe : ∀ i, g.start i ≤ g.log.length
  finLe : ∀ i f, g.fin i = some f → f ≤ g.log.length
  finSt : ∀ i, g.fin i ≠ none ↔ g.st i = .done
  idle : ∀ i, g.st i = .idle → (∀ op, Ev.inv i op ∉ g.hist)
  fresh : ∀ i op, g.st i = .invoked op → (∀ k op' r, (i, op', r) ∉ g.log ∧ (k, i, op', r) ∉ g.reads)
  inLog : ∀ i op r, (i, op, r) ∈ g.log → (∀ k op' r', (k, i, op', r') ∉ g.reads) ∧ g.st i ≠ .idle ∧
    Ev.inv i op ∈ g.hist ∧ (∀ r', Ev.ret i r' ∈ g.hist → r' = r)
  inReads : ∀ k i op r, (k, i, op, r) ∈ g.reads → g.st i = .done ∧ Ev.inv i op ∈ g.hist
  committed : ∀ i op r, g.st i = .committed op r → (i, op, r) ∈ g.log
  invInv : ∀ i op, g.st i = .invoked op → Ev.inv i op ∈ g.hist
  rets : ∀ i r, Ev.ret i r ∈ g.hist → g.st i = .done ∧ ((∃ op, (i, op, r) ∈ g.log) ∨ ∃ k op, (k, i, op, r) ∈ g.reads)
  logNodup : (g.log.map (·.1)).Nodup
  readsNodup : (g.reads.map (·.2.1)).Nodup
  before : ∀ a b, Before g.hist a b → ∃ f, g.fin a = some f ∧ f ≤ g.start b
  readsOrder : g.reads.Pairwise (fun x y => ¬ Before g.hist y.2.1 x.2.1)

theorem before_append {H : List (Ev Op Res)} {e : Ev Op Res} {a b : Nat} (h : Before (H ++ [e]) a b) :
    Before H a b ∨ (∃ op r, e = .inv b op ∧ Ev.ret a r ∈ H) := by
  obtain ⟨H₁, H₂, r, op, h1, h2, h3⟩ := h
  rcases List.eq_nil_or_concat H₂ with rfl | ⟨H₂', e', rfl⟩
  · simp at h3
  · rw [List.concat_eq_append, ← List.append_assoc] at h1
    obtain ⟨h4, h5⟩ := List.append_inj' h1 rfl
    simp only [List.cons.injEq, and_true] at h5
    subst h5
    rw [List.concat_eq_append, List.mem_append] at h3
    rcases h3 with h3 | h3
    · exact Or.inl ⟨H₁, H₂', r, op, h4, h2, h3⟩
    · simp only [List.mem_singleton] at h3
      exact Or.inr ⟨op, r, h3.symm, by rw [h4]; exact List.mem_append_left _ h2⟩

theorem before_mem {H : List (Ev Op Res)} {a b : Nat} (h : Before H a b) :
    (∃ r, Ev.ret a r ∈ H) ∧ ∃ op, Ev.inv b op ∈ H := by
  obtain ⟨H₁, H₂, r, op, rfl, h2, h3⟩ := h
  exact ⟨⟨r, List.mem_append_left _ h2⟩, ⟨op, List.mem_append_right _ h3⟩⟩

theorem ginv_init (S : Spec σ Op Res) : GInv S (Ghost.init S) := by
  constructor <;> simp [Ghost.init, Before]

theorem getElem?_append_one {α : Type} {l : List α} {x y : α} {k : Nat} (h : (l ++ [x])[k]? = some y) :
    l[k]? = some y ∨ (k = l.length ∧ y = x) := by
  rcases Nat.lt_or_ge k l.length with h1 | h1
  · rw [List.getElem?_append_left h1] at h; exact Or.inl h
  · rw [List.getElem?_append_right h1] at h
    rcases Nat.eq_or_lt_of_le h1 with h2 | h2
    · rw [← h2] at h; simp at h; exact Or.inr ⟨h2.symm, h.symm⟩
    · have : k - l.length = (k - l.length - 1) + 1 := by omega
      rw [this] at h; simp at h

theorem ginv_invoke {S : Spec σ Op Res} {g : Ghost σ Op Res} (hi : GInv S g) (i : Nat) (op : Op) (hst : g.st i = .idle) :
    GInv S (g.invoke i op) := by
  have hnoret : ∀ r, Ev.ret i r ∉ g.hist := by
    intro r h; have := (hi.rets i r h).1; rw [hst] at this; simp at this
  have hnolog : ∀ op' r, (i, op', r) ∉ g.log := by
    intro op' r h; exact (hi.inLog i op' r h).2.1 hst
  have hnoread : ∀ k op' r, (k, i, op', r) ∉ g.reads := by
    intro k op' r h; have := (hi.inReads k i op' r h).1; rw [hst] at this; simp at this
  have hnofin : g.fin i = none := by
    by_contra h; have := (hi.finSt i).mp h; rw [hst] at this; simp at this
  have hmem : ∀ e, e ∈ g.hist → e ∈ (g.invoke i op).hist := fun e h => List.mem_append_left _ h
  have hret : ∀ j r, Ev.ret j r ∈ (g.invoke i op).hist → Ev.ret j r ∈ g.hist := by
    intro j r h; simpa [Ghost.invoke] using h
  constructor
  · exact hi.init
  · exact hi.legal
  · exact hi.readLegal
  · intro k j op' r h
    have hj : j ≠ i := by rintro rfl; exact hnolog _ _ (List.mem_of_getElem? h)
    have := hi.logTime k j op' r h
    simpa [Ghost.invoke, upd_ne _ _ hj] using this
  · intro k j op' r h
    have hj : j ≠ i := by rintro rfl; exact hnoread _ _ _ h
    have := hi.readTime k j op' r h
    simpa [Ghost.invoke, upd_ne _ _ hj] using this
  · intro j
    by_cases hj : j = i
    · subst hj; simp [Ghost.invoke]
    · simp only [Ghost.invoke, upd_ne _ _ hj]; exact hi.startLe j
  · exact hi.finLe
  · intro j
    by_cases hj : j = i
    · subst hj; simp [Ghost.invoke, hnofin]
    · simp only [Ghost.invoke, upd_ne _ _ hj]; exact hi.finSt j
  · intro j hj op' hm
    by_cases hji : j = i
    · subst hji; simp [Ghost.invoke] at hj
    · simp only [Ghost.invoke, upd_ne _ _ hji] at hj
      simp only [Ghost.invoke, List.mem_append, List.mem_singleton, Ev.inv.injEq] at hm
      rcases hm with hm | hm
      · exact hi.idle j hj op' hm
      · exact hji hm.1
  · intro j op' hj k op'' r
    by_cases hji : j = i
    · subst hji; exact ⟨hnolog _ _, hnoread _ _ _⟩
    · simp only [Ghost.invoke, upd_ne _ _ hji] at hj
      exact hi.fresh j op' hj k op'' r
  · intro j op' r hm
    have hji : j ≠ i := by rintro rfl; exact hnolog _ _ hm
    obtain ⟨h1, h2, h3, h4⟩ := hi.inLog j op' r hm
    refine ⟨h1, ?_, hmem _ h3, fun r' h => h4 r' (hret j r' h)⟩
    simp only [Ghost.invoke, upd_ne _ _ hji]; exact h2
  · intro k j op' r hm
    have hji : j ≠ i := by rintro rfl; exact hnoread _ _ _ hm
    obtain ⟨h1, h2⟩ := hi.inReads k j op' r hm
    exact ⟨by simp only [Ghost.invoke, upd_ne _ _ hji]; exact h1, hmem _ h2⟩
  · intro j op' r hj
    by_cases hji : j = i
    · subst hji; simp [Ghost.invoke] at hj
    · simp only [Ghost.invoke, upd_ne _ _ hji] at hj; exact hi.committed j op' r hj
  · intro j op' hj
    by_cases hji : j = i
    · subst hji
      simp only [Ghost.invoke, upd_same, Status.invoked.injEq] at hj
      subst hj; simp [Ghost.invoke]
    · simp only [Ghost.invoke, upd_ne _ _ hji] at hj; exact hmem _ (hi.invInv j op' hj)
  · intro j r hm
    have hm' := hret j r hm
    have hji : j ≠ i := by rintro rfl; exact hnoret _ hm'
    obtain ⟨h1, h2⟩ := hi.rets j r hm'
    exact ⟨by simp only [Ghost.invoke, upd_ne _ _ hji]; exact h1, h2⟩
  · exact hi.logNodup
  · exact hi.readsNodup
  · intro a b hb
    rcases before_append hb with h | ⟨op', r, he, hr⟩
    · obtain ⟨f, h1, h2⟩ := hi.before a b h
      obtain ⟨_, op', hb'⟩ := before_mem h
      have hbi : b ≠ i := by rintro rfl; exact hi.idle b hst op' hb'
      exact ⟨f, h1, by simp only [Ghost.invoke, upd_ne _ _ hbi]; exact h2⟩
    · simp only [Ev.inv.injEq] at he
      obtain ⟨rfl, _⟩ := he
      have h1 := (hi.rets a r hr).1
      have h2 := (hi.finSt a).mpr h1
      obtain ⟨f, hf⟩ := Option.ne_none_iff_exists'.mp h2
      exact ⟨f, hf, by simp only [Ghost.invoke, upd_same]; exact hi.finLe a f hf⟩
  · have hro := hi.readsOrder
    rw [List.pairwise_iff_forall_sublist] at hro ⊢
    intro x y hxy hb
    rcases before_append hb with h | ⟨op', r, he, hr⟩
    · exact hro hxy h
    · simp only [Ev.inv.injEq] at he
      have hxm : x ∈ g.reads := hxy.subset (by simp)
      obtain ⟨k, j, o, r'⟩ := x
      simp only at he
      exact hnoread k o r' (by rw [he.1]; exact hxm)

theorem ginv_commit {S : Spec σ Op Res} {g : Ghost σ Op Res} (hi : GInv S g) (i : Nat) (op : Op) (r : Res) (s' : σ)
    (hst : g.st i = .invoked op) (hs : S.step g.cur op r s') : GInv S (g.commit i op r s') := by
  have hfr := hi.fresh i op hst
  have hnofin : g.fin i = none := by
    by_contra h; have := (hi.finSt i).mp h; rw [hst] at this; simp at this
  have hnoret : ∀ r, Ev.ret i r ∉ g.hist := by
    intro r h; have := (hi.rets i r h).1; rw [hst] at this; simp at this
  have hat : ∀ k, k ≤ g.log.length → (g.commit i op r s').at' k = g.at' k := by
    intro k hk; exact upd_ne _ _ (by omega)
  have hlt : ∀ {k : Nat} {x}, g.log[k]? = some x → k < g.log.length := fun h => (List.getElem?_eq_some_iff.mp h).1
  constructor
  · rw [hat 0 (by omega)]; exact hi.init
  · intro k j op' r' h
    rcases getElem?_append_one h with h | ⟨h1, h2⟩
    · have := hlt h
      rw [hat k (by omega), hat (k + 1) (by omega)]; exact hi.legal k j op' r' h
    · simp only [Prod.mk.injEq] at h2
      obtain ⟨rfl, rfl, rfl⟩ := h2
      subst h1
      rw [hat _ (Nat.le_refl _)]
      simp only [Ghost.commit, upd_same]; exact hs
  · intro k j op' r' h
    obtain ⟨h1, h2⟩ := hi.readLegal k j op' r' h
    rw [hat k h1]
    exact ⟨by simp only [Ghost.commit, List.length_append, List.length_singleton]; omega, h2⟩
  · intro k j op' r' h
    rcases getElem?_append_one h with h | ⟨h1, h2⟩
    · exact hi.logTime k j op' r' h
    · simp only [Prod.mk.injEq] at h2
      obtain ⟨rfl, rfl, rfl⟩ := h2
      subst h1
      exact ⟨hi.startLe j, by simp [Ghost.commit, hnofin]⟩
  · exact hi.readTime
  · intro j; have := hi.startLe j; simp only [Ghost.commit, List.length_append, List.length_singleton]; omega
  · intro j f h; have := hi.finLe j f h; simp only [Ghost.commit, List.length_append, List.length_singleton]; omega
  · intro j
    by_cases hj : j = i
    · subst hj; simp [Ghost.commit, hnofin]
    · simp only [Ghost.commit, upd_ne _ _ hj]; exact hi.finSt j
  · intro j hj
    by_cases hji : j = i
    · subst hji; simp [Ghost.commit] at hj
    · simp only [Ghost.commit, upd_ne _ _ hji] at hj; exact hi.idle j hj
  · intro j op' hj k op'' r''
    by_cases hji : j = i
    · subst hji; simp [Ghost.commit] at hj
    · simp only [Ghost.commit, upd_ne _ _ hji] at hj
      obtain ⟨h1, h2⟩ := hi.fresh j op' hj k op'' r''
      refine ⟨?_, h2⟩
      simp only [Ghost.commit, List.mem_append, List.mem_singleton, Prod.mk.injEq, not_or]
      exact ⟨h1, fun h => hji h.1⟩
  · intro j op' r' hm
    simp only [Ghost.commit, List.mem_append, List.mem_singleton, Prod.mk.injEq] at hm
    rcases hm with hm | ⟨rfl, rfl, rfl⟩
    · have hji : j ≠ i := by rintro rfl; exact (hfr 0 op' r').1 hm
      obtain ⟨h1, h2, h3, h4⟩ := hi.inLog j op' r' hm
      exact ⟨h1, by simp only [Ghost.commit, upd_ne _ _ hji]; exact h2, h3, h4⟩
    · exact ⟨fun k o r'' => (hfr k o r'').2, by simp [Ghost.commit], hi.invInv j op' hst, fun r'' h => absurd h (hnoret r'')⟩
  · intro k j op' r' hm
    have hji : j ≠ i := by rintro rfl; exact (hfr k op' r').2 hm
    obtain ⟨h1, h2⟩ := hi.inReads k j op' r' hm
    exact ⟨by simp only [Ghost.commit, upd_ne _ _ hji]; exact h1, h2⟩
  · intro j op' r' hj
    by_cases hji : j = i
    · subst hji
      simp only [Ghost.commit, upd_same, Status.committed.injEq] at hj
      obtain ⟨rfl, rfl⟩ := hj
      simp [Ghost.commit]
    · simp only [Ghost.commit, upd_ne _ _ hji] at hj
      exact List.mem_append_left _ (hi.committed j op' r' hj)
  · intro j op' hj
    by_cases hji : j = i
    · subst hji; simp [Ghost.commit] at hj
    · simp only [Ghost.commit, upd_ne _ _ hji] at hj; exact hi.invInv j op' hj
  · intro j r' hm
    have hji : j ≠ i := by rintro rfl; exact hnoret _ hm
    obtain ⟨h1, h2⟩ := hi.rets j r' hm
    refine ⟨by simp only [Ghost.commit, upd_ne _ _ hji]; exact h1, ?_⟩
    rcases h2 with ⟨o, h2⟩ | h2
    · exact Or.inl ⟨o, List.mem_append_left _ h2⟩
    · exact Or.inr h2
  · simp only [Ghost.commit, List.map_append, List.map_cons, List.map_nil]
    rw [List.nodup_append]
    refine ⟨hi.logNodup, by simp, ?_⟩
    intro a ha b hb
    simp only [List.mem_singleton] at hb
    subst hb
    rintro rfl
    obtain ⟨⟨j, o, r'⟩, h1, h2⟩ := List.mem_map.mp ha
    simp only at h2
    subst h2
    exact (hfr 0 o r').1 h1
  · exact hi.readsNodup
  · exact hi.before
  · exact hi.readsOrder

/-- The common part of both kinds of return. -/
theorem ginv_ret {S : Spec σ Op Res} {g : Ghost σ Op Res} (hi : GInv S g) (i : Nat) (r : Res) (new : List (Nat × Nat × Op × Res))
    (h : (new = [] ∧ ∃ op, g.st i = .committed op r) ∨
      (∃ k op, new = [(k, i, op, r)] ∧ g.st i = .invoked op ∧ g.start i ≤ k ∧ k ≤ g.log.length ∧ S.step (g.at' k) op r (g.at' k))) :
    GInv S { g with hist := g.hist ++ [.ret i r], st := upd g.st i .done, fin := upd g.fin i (some g.log.length),
                    reads := g.reads ++ new } := by
  have hact : g.st i ≠ .idle ∧ g.st i ≠ .done := by
    rcases h with ⟨_, op, h⟩ | ⟨_, _, _, h, _⟩ <;> simp [h]
  have hnofin : g.fin i = none := by
    by_contra h'; exact hact.2 ((hi.finSt i).mp h')
  have hnoret : ∀ r, Ev.ret i r ∉ g.hist := fun r h' => hact.2 (hi.rets i r h').1
  have hinvmem : ∀ j op, Ev.inv j op ∈ g.hist ++ [.ret i r] → Ev.inv j op ∈ g.hist := by
    intro j op h'; simpa using h'
  have hnew : ∀ x ∈ new, ∃ k op, x = (k, i, op, r) ∧ g.st i = .invoked op ∧ g.start i ≤ k ∧ k ≤ g.log.length ∧ S.step (g.at' k) op r (g.at' k) := by
    intro x hx
    rcases h with ⟨rfl, _⟩ | ⟨k, op, rfl, h1, h2, h3, h4⟩
    · simp at hx
    · simp only [List.mem_singleton] at hx; exact ⟨k, op, hx, h1, h2, h3, h4⟩
  have hbef : ∀ a b, Before (g.hist ++ [.ret i r]) a b → Before g.hist a b := by
    intro a b hb
    rcases before_append hb with h' | ⟨op', r', he, _⟩
    · exact h'
    · simp at he
  have hread_ne : ∀ k j op r', (k, j, op, r') ∈ g.reads → j ≠ i := by
    rintro k j op r' hm rfl; exact hact.2 (hi.inReads k j op r' hm).1
  constructor
  · exact hi.init
  · exact hi.legal
  · intro k j op' r' hm
    rcases List.mem_append.mp hm with hm | hm
    · exact hi.readLegal k j op' r' hm
    · obtain ⟨k', o, he, h1, h2, h3, h4⟩ := hnew _ hm
      simp only [Prod.mk.injEq] at he
      obtain ⟨rfl, rfl, rfl, rfl⟩ := he
      exact ⟨h3, h4⟩
  · intro k j op' r' hm
    obtain ⟨h1, h2⟩ := hi.logTime k j op' r' hm
    refine ⟨h1, ?_⟩
    intro f hf
    by_cases hj : j = i
    · subst hj
      simp only [upd_same, Option.some.injEq] at hf
      subst hf
      exact (List.getElem?_eq_some_iff.mp hm).1
    · simp only [upd_ne _ _ hj] at hf; exact h2 f hf
  · intro k j op' r' hm
    rcases List.mem_append.mp hm with hm | hm
    · obtain ⟨h1, h2⟩ := hi.readTime k j op' r' hm
      exact ⟨h1, by simp only [upd_ne _ _ (hread_ne _ _ _ _ hm)]; exact h2⟩
    · obtain ⟨k', o, he, h1, h2, h3, h4⟩ := hnew _ hm
      simp only [Prod.mk.injEq] at he
      obtain ⟨rfl, rfl, rfl, rfl⟩ := he
      exact ⟨h2, by intro f hf; simp at hf; omega⟩
  · exact hi.startLe
  · intro j f hf
    by_cases hj : j = i
    · subst hj; simp at hf; simp only; omega
    · simp only [upd_ne _ _ hj] at hf; exact hi.finLe j f hf
  · intro j
    by_cases hj : j = i
    · subst hj; simp
    · simp only [upd_ne _ _ hj]; exact hi.finSt j
  · intro j hj op hm
    by_cases hji : j = i
    · subst hji; simp at hj
    · simp only [upd_ne _ _ hji] at hj
      exact hi.idle j hj op (hinvmem _ _ hm)
  · intro j op' hj k op'' r''
    by_cases hji : j = i
    · subst hji; simp at hj
    · simp only [upd_ne _ _ hji] at hj
      obtain ⟨h1, h2⟩ := hi.fresh j op' hj k op'' r''
      refine ⟨h1, ?_⟩
      intro hm
      rcases List.mem_append.mp hm with hm | hm
      · exact h2 hm
      · obtain ⟨k', o, he, _⟩ := hnew _ hm
        simp only [Prod.mk.injEq] at he
        exact hji he.2.1
  · intro j op' r' hm
    obtain ⟨h1, h2, h3, h4⟩ := hi.inLog j op' r' hm
    refine ⟨?_, ?_, List.mem_append_left _ h3, ?_⟩
    · intro k o r'' hr
      rcases List.mem_append.mp hr with hr | hr
      · exact h1 k o r'' hr
      · obtain ⟨k', o', he, h5, _⟩ := hnew _ hr
        simp only [Prod.mk.injEq] at he
        rw [he.2.1] at hm
        exact (hi.fresh i o' h5 0 op' r').1 hm
    · by_cases hji : j = i
      · subst hji; simp
      · simp only [upd_ne _ _ hji]; exact h2
    · intro r'' hr
      simp only [List.mem_append, List.mem_singleton, Ev.ret.injEq] at hr
      rcases hr with hr | ⟨rfl, rfl⟩
      · exact h4 r'' hr
      · rcases h with ⟨_, o, h⟩ | ⟨_, o, _, h, _⟩
        · have h5 := hi.committed j o r'' h
          have := List.inj_on_of_nodup_map hi.logNodup hm h5 rfl
          simp only [Prod.mk.injEq] at this
          exact this.2.2.symm
        · exact absurd hm (hi.fresh j o h 0 op' r').1
  · intro k j op' r' hm
    rcases List.mem_append.mp hm with hm | hm
    · obtain ⟨h1, h2⟩ := hi.inReads k j op' r' hm
      exact ⟨by simp only [upd_ne _ _ (hread_ne _ _ _ _ hm)]; exact h1, List.mem_append_left _ h2⟩
    · obtain ⟨k', o, he, h1, h2, h3, h4⟩ := hnew _ hm
      simp only [Prod.mk.injEq] at he
      obtain ⟨rfl, rfl, rfl, rfl⟩ := he
      exact ⟨by simp, List.mem_append_left _ (hi.invInv _ _ h1)⟩
  · intro j op' r' hj
    by_cases hji : j = i
    · subst hji; simp at hj
    · simp only [upd_ne _ _ hji] at hj; exact hi.committed j op' r' hj
  · intro j op' hj
    by_cases hji : j = i
    · subst hji; simp at hj
    · simp only [upd_ne _ _ hji] at hj; exact List.mem_append_left _ (hi.invInv j op' hj)
  · intro j r' hm
    simp only [List.mem_append, List.mem_singleton, Ev.ret.injEq] at hm
    rcases hm with hm | ⟨rfl, rfl⟩
    · have hji : j ≠ i := by rintro rfl; exact hnoret _ hm
      obtain ⟨h1, h2⟩ := hi.rets j r' hm
      refine ⟨by simp only [upd_ne _ _ hji]; exact h1, ?_⟩
      rcases h2 with h2 | ⟨k, o, h2⟩
      · exact Or.inl h2
      · exact Or.inr ⟨k, o, List.mem_append_left _ h2⟩
    · refine ⟨by simp, ?_⟩
      rcases h with ⟨_, o, h⟩ | ⟨k, o, rfl, h, _⟩
      · exact Or.inl ⟨o, hi.committed j o r' h⟩
      · exact Or.inr ⟨k, o, by simp⟩
  · exact hi.logNodup
  · simp only [List.map_append]
    rw [List.nodup_append]
    refine ⟨hi.readsNodup, ?_, ?_⟩
    · rcases h with ⟨rfl, _⟩ | ⟨k, op, rfl, _⟩ <;> simp
    · intro a ha b hb
      rintro rfl
      obtain ⟨x, hx, rfl⟩ := List.mem_map.mp hb
      obtain ⟨k', o, rfl, _⟩ := hnew _ hx
      obtain ⟨⟨k, j, o', r'⟩, h1, h2⟩ := List.mem_map.mp ha
      exact hread_ne _ _ _ _ h1 h2
  · intro a b hb
    have hb' := hbef a b hb
    obtain ⟨f, h1, h2⟩ := hi.before a b hb'
    have hai : a ≠ i := by rintro rfl; rw [hnofin] at h1; simp at h1
    exact ⟨f, by simp only [upd_ne _ _ hai]; exact h1, h2⟩
  · rw [List.pairwise_append]
    refine ⟨?_, ?_, ?_⟩
    · have hro := hi.readsOrder
      rw [List.pairwise_iff_forall_sublist] at hro ⊢
      intro x y hxy hb
      exact hro hxy (hbef _ _ hb)
    · rcases h with ⟨rfl, _⟩ | ⟨k, op, rfl, _⟩ <;> simp
    · intro x hx y hy hb
      obtain ⟨k', o, rfl, _⟩ := hnew _ hy
      obtain ⟨⟨r', hr'⟩, _⟩ := before_mem (hbef _ _ hb)
      exact hnoret r' hr'

theorem ginv_step {S : Spec σ Op Res} {g g' : Ghost σ Op Res} (hi : GInv S g) (hs : GStep S g g') : GInv S g' := by
  cases hs with
  | invoke i op h => exact ginv_invoke hi i op h
  | commit i op r s' h1 h2 => exact ginv_commit hi i op r s' h1 h2
  | retC i op r h =>
    have := ginv_ret hi i r [] (Or.inl ⟨rfl, op, h⟩)
    simpa [Ghost.retC] using this
  | retR i k op r h1 h2 h3 h4 => exact ginv_ret hi i r [(k, i, op, r)] (Or.inr ⟨k, op, rfl, h1, h2, h3, h4⟩)

theorem ginv_reach {S : Spec σ Op Res} {g : Ghost σ Op Res} (h : GReach S g) : GInv S g := by
  induction h with
  | init => exact ginv_init S
  | step _ hs ih => exact ginv_step ih hs

/-! ## From the ghost state to a linearization -/

/-- The reads at instant `k`. -/
def readsAt (reads : List (Nat × Nat × Op × Res)) (k : Nat) : List (Nat × Op × Res) :=
  (reads.filter (fun x => x.1 == k)).map (·.2)

/-- Reads at instant `k`, first commit, reads at the next instant, … -/
def build (reads : List (Nat × Nat × Op × Res)) : (k : Nat) → List (Nat × Op × Res) → List (Nat × Op × Res)
  | k, [] => readsAt reads k
  | k, e :: l => readsAt reads k ++ e :: build reads (k + 1) l

theorem mem_readsAt {reads : List (Nat × Nat × Op × Res)} {k : Nat} {x : Nat × Op × Res} :
    x ∈ readsAt reads k ↔ (k, x) ∈ reads := by
  simp only [readsAt, List.mem_map, List.mem_filter, beq_iff_eq]
  constructor
  · rintro ⟨⟨a, b⟩, ⟨h1, h2⟩, h3⟩; simp only at h2 h3; subst h2; subst h3; exact h1
  · intro h; exact ⟨(k, x), ⟨h, rfl⟩, rfl⟩

theorem mem_build {reads : List (Nat × Nat × Op × Res)} {x : Nat × Op × Res} : ∀ (l : List (Nat × Op × Res)) (k : Nat),
    x ∈ build reads k l ↔ (∃ j : Nat, l[j]? = some x) ∨ ∃ j, j ≤ l.length ∧ (k + j, x) ∈ reads := by
  intro l
  induction l with
  | nil => intro k; simp [build, mem_readsAt]
  | cons e l ih =>
    intro k
    simp only [build, List.mem_append, List.mem_cons, mem_readsAt, ih]
    constructor
    · rintro (h | rfl | ⟨j, h⟩ | ⟨j, h1, h2⟩)
      · exact Or.inr ⟨0, by omega, by simpa using h⟩
      · exact Or.inl ⟨0, rfl⟩
      · exact Or.inl ⟨j + 1, by simpa using h⟩
      · exact Or.inr ⟨j + 1, by simp; omega, by rw [show k + (j + 1) = k + 1 + j by omega]; exact h2⟩
    · rintro (⟨j, h⟩ | ⟨j, h1, h2⟩)
      · cases j with
        | zero => simp at h; exact Or.inr (Or.inl h.symm)
        | succ j => exact Or.inr (Or.inr (Or.inl ⟨j, by simpa using h⟩))
      · cases j with
        | zero => exact Or.inl (by simpa using h2)
        | succ j => exact Or.inr (Or.inr (Or.inr ⟨j, by simp at h1; omega, by rw [show k + 1 + j = k + (j + 1) by omega]; exact h2⟩))

theorem runs_append {S : Spec σ Op Res} {s s' s'' : σ} {l l' : List (Nat × Op × Res)} (h : Runs S s l s') (h' : Runs S s' l' s'') :
    Runs S s (l ++ l') s'' := by
  induction h with
  | nil s => exact h'
  | cons h1 _ ih => exact .cons h1 (ih h')

theorem runs_same {S : Spec σ Op Res} {s : σ} {l : List (Nat × Op × Res)} (h : ∀ x ∈ l, S.step s x.2.1 x.2.2 s) : Runs S s l s := by
  induction l with
  | nil => exact .nil s
  | cons x l ih => obtain ⟨i, op, r⟩ := x; exact .cons (h (i, op, r) (by simp)) (ih (fun y hy => h y (by simp [hy])))

theorem runs_build {S : Spec σ Op Res} {reads : List (Nat × Nat × Op × Res)} {at' : Nat → σ} : ∀ (l : List (Nat × Op × Res)) (k : Nat),
    (∀ (j : Nat) i op r, l[j]? = some (i, op, r) → S.step (at' (k + j)) op r (at' (k + j + 1))) →
    (∀ j i op r, (j, i, op, r) ∈ reads → S.step (at' j) op r (at' j)) → Runs S (at' k) (build reads k l) (at' (k + l.length)) := by
  intro l
  induction l with
  | nil =>
    intro k _ h2
    simp only [build, List.length_nil, Nat.add_zero]
    apply runs_same
    rintro ⟨i, op, r⟩ hx
    exact h2 k i op r (mem_readsAt.mp hx)
  | cons e l ih =>
    intro k h1 h2
    obtain ⟨i, op, r⟩ := e
    simp only [build]
    apply runs_append (s' := at' k)
    · apply runs_same
      rintro ⟨i, op, r⟩ hx
      exact h2 k i op r (mem_readsAt.mp hx)
    · refine .cons (h1 0 i op r rfl) ?_
      have := ih (k + 1) (fun j i op r h => by
        have := h1 (j + 1) i op r (by simpa using h)
        rw [show k + 1 + j = k + (j + 1) by omega]; exact this) h2
      rw [show k + (List.length ((i, op, r) :: l)) = k + 1 + l.length by simp; omega]
      exact this

/-- A pairwise property of the constructed order from the timing of its elements. -/
theorem build_pairwise {P : Nat × Op × Res → Nat × Op × Res → Prop} {reads : List (Nat × Nat × Op × Res)} :
    ∀ (l : List (Nat × Op × Res)) (k : Nat),
    (∀ j, (readsAt reads j).Pairwise P) →
    (∀ (j j' : Nat) x y, l[j]? = some x → l[j']? = some y → j < j' → P x y) →
    (∀ (j j' : Nat) x y, l[j]? = some x → (k + j', y) ∈ reads → j < j' → P x y) →
    (∀ (j j' : Nat) x y, (k + j, x) ∈ reads → l[j']? = some y → j ≤ j' → P x y) →
    (∀ (j j' : Nat) x y, (k + j, x) ∈ reads → (k + j', y) ∈ reads → j < j' → P x y) → (build reads k l).Pairwise P := by
  intro l
  induction l with
  | nil => intro k h1 _ _ _ _; exact h1 k
  | cons e l ih =>
    intro k h1 h2 h3 h4 h5
    simp only [build]
    have hrest : (build reads (k + 1) l).Pairwise P := by
      apply ih (k + 1) h1
      · intro j j' x y hx hy hlt
        exact h2 (j + 1) (j' + 1) x y (by simpa using hx) (by simpa using hy) (by omega)
      · intro j j' x y hx hy hlt
        exact h3 (j + 1) (j' + 1) x y (by simpa using hx) (by rw [show k + (j' + 1) = k + 1 + j' by omega]; exact hy) (by omega)
      · intro j j' x y hx hy hlt
        exact h4 (j + 1) (j' + 1) x y (by rw [show k + (j + 1) = k + 1 + j by omega]; exact hx) (by simpa using hy) (by omega)
      · intro j j' x y hx hy hlt
        exact h5 (j + 1) (j' + 1) x y (by rw [show k + (j + 1) = k + 1 + j by omega]; exact hx) (by rw [show k + (j' + 1) = k + 1 + j' by omega]; exact hy) (by omega)
    rw [List.pairwise_append, List.pairwise_cons]
    refine ⟨h1 k, ⟨?_, hrest⟩, ?_⟩
    · intro y hy
      rcases (mem_build l (k + 1)).mp hy with ⟨j, hj⟩ | ⟨j, _, hj⟩
      · exact h2 0 (j + 1) e y rfl (by simpa using hj) (by omega)
      · exact h3 0 (j + 1) e y rfl (by rw [show k + (j + 1) = k + 1 + j by omega]; exact hj) (by omega)
    · intro x hx y hy
      have hx' : (k + 0, x) ∈ reads := mem_readsAt.mp hx
      rw [List.mem_cons] at hy
      rcases hy with rfl | hy
      · exact h4 0 0 x y hx' rfl (by omega)
      · rcases (mem_build l (k + 1)).mp hy with ⟨j, hj⟩ | ⟨j, _, hj⟩
        · exact h4 0 (j + 1) x y hx' (by simpa using hj) (by omega)
        · exact h5 0 (j + 1) x y hx' (by rw [show k + (j + 1) = k + 1 + j by omega]; exact hj) (by omega)

/-- The order built from a ghost state is a linearization of its history. -/
theorem GReach.build_linearizes {S : Spec σ Op Res} {g : Ghost σ Op Res} (h : GReach S g) :
    ((build g.reads 0 g.log).map (·.1)).Nodup ∧ (∀ x ∈ build g.reads 0 g.log, Ev.inv x.1 x.2.1 ∈ g.hist) ∧
    (∀ i r, Ev.ret i r ∈ g.hist → ∃ op, (i, op, r) ∈ build g.reads 0 g.log) ∧ (∃ s, Runs S S.init (build g.reads 0 g.log) s) ∧
    (build g.reads 0 g.log).Pairwise (fun x y => ¬ Before g.hist y.1 x.1) := by
  have hi := ginv_reach h
  have hloc : ∀ j x, g.log[j]? = some x → x ∈ g.log := fun j x h => List.mem_of_getElem? h
  refine ⟨?_, ?_, ?_, ?_, ?_⟩
  · -- no operation twice
    rw [List.Nodup, List.pairwise_map]
    apply build_pairwise
    · intro j
      have h1 : (g.reads.map (·.2.1)).Nodup := hi.readsNodup
      rw [List.Nodup, List.pairwise_map] at h1
      simp only [readsAt]
      rw [List.pairwise_map]
      exact h1.sublist List.filter_sublist
    · intro j j' x y hx hy hlt he
      have h1 := hi.logNodup
      rw [List.nodup_iff_pairwise_ne, List.pairwise_map, List.pairwise_iff_getElem] at h1
      obtain ⟨hj, hx⟩ := List.getElem?_eq_some_iff.mp hx
      obtain ⟨hj', hy⟩ := List.getElem?_eq_some_iff.mp hy
      exact h1 j j' hj hj' hlt (by rw [hx, hy]; exact he)
    · rintro j j' ⟨i, op, r⟩ ⟨i', op', r'⟩ hx hy hlt he
      simp only at he
      subst he
      exact (hi.inLog _ _ _ (hloc _ _ hx)).1 _ _ _ hy
    · rintro j j' ⟨i, op, r⟩ ⟨i', op', r'⟩ hx hy hlt he
      simp only at he
      subst he
      exact (hi.inLog _ _ _ (hloc _ _ hy)).1 _ _ _ hx
    · rintro j j' ⟨i, op, r⟩ ⟨i', op', r'⟩ hx hy hlt he
      simp only at he
      subst he
      have := List.inj_on_of_nodup_map hi.readsNodup hx hy rfl
      simp only [Prod.mk.injEq] at this
      omega
  · rintro ⟨i, op, r⟩ hx
    rcases (mem_build _ _).mp hx with ⟨j, hj⟩ | ⟨j, _, hj⟩
    · exact (hi.inLog _ _ _ (hloc _ _ hj)).2.2.1
    · exact (hi.inReads _ _ _ _ hj).2
  · intro i r hr
    rcases (hi.rets i r hr).2 with ⟨op, h1⟩ | ⟨k, op, h1⟩
    · exact ⟨op, (mem_build _ _).mpr (Or.inl (List.mem_iff_getElem?.mp h1))⟩
    · refine ⟨op, (mem_build _ _).mpr (Or.inr ⟨k, (hi.readLegal _ _ _ _ h1).1, by simpa using h1⟩)⟩
  · have := runs_build (S := S) (reads := g.reads) (at' := g.at') g.log 0
      (fun j i op r hj => by simpa using hi.legal j i op r hj) (fun j i op r hj => (hi.readLegal j i op r hj).2)
    rw [hi.init] at this
    exact ⟨_, this⟩
  · apply build_pairwise
    · intro j
      simp only [readsAt]
      rw [List.pairwise_map]
      exact hi.readsOrder.sublist List.filter_sublist
    · rintro j j' ⟨i, op, r⟩ ⟨i', op', r'⟩ hx hy hlt hb
      obtain ⟨f, h1, h2⟩ := hi.before _ _ hb
      have h3 := (hi.logTime _ _ _ _ hx).1
      have h4 := (hi.logTime _ _ _ _ hy).2 f h1
      simp only at h2
      omega
    · rintro j j' ⟨i, op, r⟩ ⟨i', op', r'⟩ hx hy hlt hb
      obtain ⟨f, h1, h2⟩ := hi.before _ _ hb
      have h3 := (hi.logTime _ _ _ _ hx).1
      have h4 := (hi.readTime _ _ _ _ hy).2 f h1
      simp only at h2
      omega
    · rintro j j' ⟨i, op, r⟩ ⟨i', op', r'⟩ hx hy hlt hb
      obtain ⟨f, h1, h2⟩ := hi.before _ _ hb
      have h3 := (hi.readTime _ _ _ _ hx).1
      have h4 := (hi.logTime _ _ _ _ hy).2 f h1
      simp only at h2
      omega
    · rintro j j' ⟨i, op, r⟩ ⟨i', op', r'⟩ hx hy hlt hb
      obtain ⟨f, h1, h2⟩ := hi.before _ _ hb
      have h3 := (hi.readTime _ _ _ _ hx).1
      have h4 := (hi.readTime _ _ _ _ hy).2 f h1
      simp only at h2
      omega

/-- Every history of the ghost automaton is linearizable. -/
theorem GReach.linearizable {S : Spec σ Op Res} {g : Ghost σ Op Res} (h : GReach S g) : Linearizable S g.hist :=
  ⟨_, h.build_linearizes⟩

/-! ## Programs and simulation -/

/-- The histories of a concurrent program given by its initial state and its atomic steps, each of which may be the
invocation or the response of an operation. -/
inductive Exec {M : Type} (m₀ : M) (Step : M → Option (Ev Op Res) → M → Prop) : M → List (Ev Op Res) → Prop where
  | init : Exec m₀ Step m₀ []
  | tau {m m' : M} {H : List (Ev Op Res)} : Exec m₀ Step m H → Step m none m' → Exec m₀ Step m' H
  | ev {m m' : M} {H : List (Ev Op Res)} {e : Ev Op Res} : Exec m₀ Step m H → Step m (some e) m' → Exec m₀ Step m' (H ++ [e])

/-- Proof only: several steps of the abstract object. -/
inductive GSteps (S : Spec σ Op Res) : Ghost σ Op Res → Ghost σ Op Res → Prop where
  | refl (g : Ghost σ Op Res) : GSteps S g g
  | step {g g' g'' : Ghost σ Op Res} : GSteps S g g' → GStep S g' g'' → GSteps S g g''

theorem GSteps.reach {S : Spec σ Op Res} {g g' : Ghost σ Op Res} (hg : GReach S g) (h : GSteps S g g') : GReach S g' := by
  induction h with
  | refl => exact hg
  | step _ hs ih => exact .step ih hs

/-- A simulation by the ghost automaton gives the ghost execution of every history. -/
theorem simulate {M : Type} {m₀ : M} {Step : M → Option (Ev Op Res) → M → Prop} {S : Spec σ Op Res}
    (Sim : M → Ghost σ Op Res → Prop) (h0 : Sim m₀ (Ghost.init S))
    (hstep : ∀ m g l m', GReach S g → Sim m g → Step m l m' → ∃ g', GSteps S g g' ∧ g'.hist = g.hist ++ l.toList ∧ Sim m' g')
    {m : M} {H : List (Ev Op Res)} (h : Exec m₀ Step m H) : ∃ g, GReach S g ∧ g.hist = H ∧ Sim m g := by
  induction h with
  | init => exact ⟨_, .init, rfl, h0⟩
  | tau _ hs ih =>
    obtain ⟨g, h1, h2, h3⟩ := ih
    obtain ⟨g', h4, h5, h6⟩ := hstep _ _ _ _ h1 h3 hs
    exact ⟨g', h4.reach h1, by rw [h5, h2]; simp, h6⟩
  | ev _ hs ih =>
    obtain ⟨g, h1, h2, h3⟩ := ih
    obtain ⟨g', h4, h5, h6⟩ := hstep _ _ _ _ h1 h3 hs
    exact ⟨g', h4.reach h1, by rw [h5, h2]; simp, h6⟩

/-! ## Machines -/

/-- A concurrent program: every call `i` is a process; `next m i c` is the next atomic step of call `i` when the
environment makes the choice `c` (scheduling of a `select`, a map iteration order, …). -/
structure Mach (M Op Res : Type) where
  start : M
  invoke : M → Nat → Op → Option M
  next : M → Nat → Nat → Option (Option (Ev Op Res) × M)

/-- All steps of a machine: a new call starts, or a running call takes its next atomic step. -/
inductive Mach.Step {M : Type} (P : Mach M Op Res) : M → Option (Ev Op Res) → M → Prop where
  | inv (m : M) (i : Nat) (op : Op) (m' : M) : P.invoke m i op = some m' → Mach.Step P m (some (.inv i op)) m'
  | run (m : M) (i c : Nat) (l : Option (Ev Op Res)) (m' : M) : P.next m i c = some (l, m') → Mach.Step P m l m'

/-- Reachable states with their histories, over all schedules. -/
def Mach.Exec {M : Type} (P : Mach M Op Res) (m : M) (H : List (Ev Op Res)) : Prop := Verif.Conc.Exec P.start P.Step m H

/-- `P.Without i m H m' H'`: from `m`, with history `H`, an execution in which call `i` takes no step leads to `m'`, with history `H'`. -/
inductive Mach.Without {M : Type} (P : Mach M Op Res) (i : Nat) : M → List (Ev Op Res) → M → List (Ev Op Res) → Prop where
  | refl {m : M} {H : List (Ev Op Res)} : Mach.Without P i m H m H
  | inv {m m' m'' : M} {H H' : List (Ev Op Res)} {j : Nat} {op : Op} : P.invoke m j op = some m' → Mach.Without P i m' (H ++ [.inv j op]) m'' H' →
      Mach.Without P i m H m'' H'
  | tau {m m' m'' : M} {H H' : List (Ev Op Res)} {j c : Nat} : j ≠ i → P.next m j c = some (none, m') → Mach.Without P i m' H m'' H' →
      Mach.Without P i m H m'' H'
  | ev {m m' m'' : M} {H H' : List (Ev Op Res)} {e : Ev Op Res} {j c : Nat} : j ≠ i → P.next m j c = some (some e, m') →
      Mach.Without P i m' (H ++ [e]) m'' H' → Mach.Without P i m H m'' H'

theorem Mach.Without.trans {M : Type} {P : Mach M Op Res} {i : Nat} {m m' m'' : M} {H H' H'' : List (Ev Op Res)} (h : P.Without i m H m' H')
    (h' : P.Without i m' H' m'' H'') : P.Without i m H m'' H'' := by
  induction h with
  | refl => exact h'
  | inv hi _ ih => exact .inv hi (ih h')
  | tau hj hn _ ih => exact .tau hj hn (ih h')
  | ev hj hn _ ih => exact .ev hj hn (ih h')

theorem Mach.Without.exec {M : Type} {P : Mach M Op Res} {i : Nat} {m m' : M} {H H' : List (Ev Op Res)} (h : P.Without i m H m' H') (he : P.Exec m H) :
    P.Exec m' H' := by
  induction h with
  | refl => exact he
  | inv hi _ ih => exact ih (.ev he (.inv _ _ _ _ hi))
  | tau _ hn _ ih => exact ih (.tau he (.run _ _ _ _ _ hn))
  | ev _ hn _ ih => exact ih (.ev he (.run _ _ _ _ _ hn))

/-- `P.Leads m H m' H'`: from `m`, with history `H`, an execution without new calls leads to `m'`, with history `H'`. -/
inductive Mach.Leads {M : Type} (P : Mach M Op Res) : M → List (Ev Op Res) → M → List (Ev Op Res) → Prop where
  | refl {m : M} {H : List (Ev Op Res)} : Mach.Leads P m H m H
  | tau {m m' m'' : M} {H H' : List (Ev Op Res)} {j c : Nat} : P.next m j c = some (none, m') → Mach.Leads P m' H m'' H' → Mach.Leads P m H m'' H'
  | ev {m m' m'' : M} {H H' : List (Ev Op Res)} {e : Ev Op Res} {j c : Nat} : P.next m j c = some (some e, m') →
      Mach.Leads P m' (H ++ [e]) m'' H' → Mach.Leads P m H m'' H'

theorem Mach.Leads.trans {M : Type} {P : Mach M Op Res} {m m' m'' : M} {H H' H'' : List (Ev Op Res)} (h : P.Leads m H m' H')
    (h' : P.Leads m' H' m'' H'') : P.Leads m H m'' H'' := by
  induction h with
  | refl => exact h'
  | tau hn _ ih => exact .tau hn (ih h')
  | ev hn _ ih => exact .ev hn (ih h')

theorem Mach.Leads.exec {M : Type} {P : Mach M Op Res} {m m' : M} {H H' : List (Ev Op Res)} (h : P.Leads m H m' H') (he : P.Exec m H) : P.Exec m' H' := by
  induction h with
  | refl => exact he
  | tau hn _ ih => exact ih (.tau he (.run _ _ _ _ _ hn))
  | ev hn _ ih => exact ih (.ev he (.run _ _ _ _ _ hn))

/-- One item of a schedule. -/
inductive Act (Op : Type) where
  | inv (i : Nat) (op : Op)
  | run (i : Nat) (c : Nat := 0)

/-- Run a machine along a given schedule (for examples). -/
def Mach.play {M : Type} (P : Mach M Op Res) : M × List (Ev Op Res) → List (Act Op) → Option (M × List (Ev Op Res))
  | x, [] => some x
  | (m, H), .inv i op :: as => match P.invoke m i op with
    | none => none
    | some m' => P.play (m', H ++ [.inv i op]) as
  | (m, H), .run i c :: as => match P.next m i c with
    | none => none
    | some (none, m') => P.play (m', H) as
    | some (some e, m') => P.play (m', H ++ [e]) as

theorem Mach.play_exec {M : Type} (P : Mach M Op Res) : ∀ (as : List (Act Op)) (m : M) (H : List (Ev Op Res)) (x : M × List (Ev Op Res)),
    P.Exec m H → P.play (m, H) as = some x → P.Exec x.1 x.2 := by
  intro as
  induction as with
  | nil => intro m H x h e; simp only [Mach.play, Option.some.injEq] at e; subst e; exact h
  | cons a as ih =>
    intro m H x h e
    cases a with
    | inv i op =>
      simp only [Mach.play] at e
      split at e
      · simp at e
      · rename_i m' hm
        exact ih _ _ _ (.ev h (.inv _ _ _ _ hm)) e
    | run i c =>
      simp only [Mach.play] at e
      split at e
      · simp at e
      · rename_i m' hm
        exact ih _ _ _ (.tau h (.run _ _ _ _ _ hm)) e
      · rename_i ev m' hm
        exact ih _ _ _ (.ev h (.run _ _ _ _ _ hm)) e

/-- Every schedule that can be played is an execution. -/
theorem Mach.exec_of_play {M : Type} (P : Mach M Op Res) (as : List (Act Op)) (x : M × List (Ev Op Res))
    (h : P.play (P.start, []) as = some x) : P.Exec x.1 x.2 :=
  P.play_exec as _ _ _ .init h

theorem Mach.exists_exec {M : Type} (P : Mach M Op Res) (as : List (Act Op)) (H : List (Ev Op Res))
    (h : (P.play (P.start, []) as).map (·.2) = some H) : ∃ m, P.Exec m H := by
  cases hx : P.play (P.start, []) as with
  | none => rw [hx] at h; simp at h
  | some x =>
    rw [hx] at h
    simp only [Option.map_some, Option.some.injEq] at h
    subst h
    exact ⟨x.1, P.exec_of_play as x hx⟩

theorem Mach.exists_exec_state {M : Type} (P : Mach M Op Res) (as : List (Act Op)) (H : List (Ev Op Res)) (Q : M → Prop)
    (h : (P.play (P.start, []) as).elim False (fun x => x.2 = H ∧ Q x.1)) : ∃ m, P.Exec m H ∧ Q m := by
  cases hx : P.play (P.start, []) as with
  | none => rw [hx] at h; exact h.elim
  | some x =>
    rw [hx] at h
    obtain ⟨rfl, hq⟩ := h
    exact ⟨x.1, P.exec_of_play as x hx, hq⟩

end Verif.Conc

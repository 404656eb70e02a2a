import Verif.XStream.Nets
/-!
# Properties C43-C54: streams

A program is a network of stream nodes (`IsProgram`): any number of sources, operations, Concat, Copy and terminal operations, in which
every stream is consumed once. The theorems are about all its executions: `NReach N m` says that `m` is reached by some interleaving of
the goroutines, `NStep m m'` is a step of one goroutine (or of a sender and a receiver together), `(m.hist i).ins p` and
`(m.hist i).outs q` are the sequences of values that node `i` has received from and sent to its channels, `(m.hist i).log` the calls
of user functions and the returns.

`FewValues N` says that no channel carries `2^63` values; `program_few`, `concatNet_few` and `copyNet_few` derive it from the number of
elements of the sources.
-/
namespace Verif.XStream
open Verif.Go Verif.Conc.Net

variable {α K : Type} [DecidableEq K] {N : Net (Val α) (Ev α K)} {node : Nat → Node α K}

/-! ## C44, C45: no panic, no deadlock, every execution ends -/

/-- C44: no goroutine ever sends on a closed channel or closes a channel twice; from the moment a channel is closed nothing more is sent to
it; when the execution has ended every channel is closed and everything sent on it has been received. -/
theorem C44_close_once (hp : IsProgram N node) (hf : FewValues N) {m : NState N} (hr : NReach N m) :
    m.crashed = false ∧
    (∀ m', Relation.ReflTransGen NStep m m' → ∀ i < N.n, ∀ q < (N.comp i).nout, m.closed i q = true →
      m'.closed i q = true ∧ (m'.hist i).outs q = (m.hist i).outs q) ∧
    ((∀ m', ¬ NStep m m') → ∀ i < N.n, ∀ q < (N.comp i).nout, m.closed i q = true ∧
      (m.hist (N.dst i q).1).ins (N.dst i q).2 = (m.hist i).outs q) := by
  have hinv := hp.inv hf hr
  refine ⟨hinv.ok, ?_, ?_⟩
  · intro m' hs i hi q hq hc
    have := closed_stable hp hf hr hs hi hq hc
    exact ⟨this.1, this.2.1⟩
  · intro hend i hi q hq
    have hd := stuck_done hp.wf hf hp.good hr hend
    refine ⟨?_, ?_⟩
    · rw [hinv.cl i hi q hq]
      exact ((hp.good i hi).fin _ _ (hinv.reach i hi) (hf m hr i hi) (hd i hi)).2.1 q hq
    · obtain ⟨d1, d2, d3⟩ := hp.wf.hdst i hi q hq
      have := (final hp.wf hf hp.good hr hd).2 _ d1 _ d2
      rw [d3] at this
      exact this

/-- C45: a state in which no goroutine can move is one in which every goroutine has finished; there is no infinite execution; and so from
every state the end is reached. -/
theorem C45_no_deadlock (hp : IsProgram N node) (hf : FewValues N) :
    (∀ m, NReach N m → (∀ m', ¬ NStep m m') → ∀ i < N.n, (N.comp i).done (m.st i)) ∧
    (∀ e : Nat → NState N, NReach N (e 0) → ¬ ∀ k, NStep (e k) (e (k + 1))) ∧
    (∀ m, NReach N m → ∃ m', Relation.ReflTransGen NStep m m' ∧ ∀ i < N.n, (N.comp i).done (m'.st i)) :=
  ⟨fun _ hr hend => stuck_done hp.wf hf hp.good hr hend, finite hp.wf hf hp.good, fun _ hr => reaches_end hp.wf hf hp.good hr⟩

/-- Every program reaches a state in which no goroutine can move. -/
theorem ends (hp : IsProgram N node) (hf : FewValues N) : ∃ m, NReach N m ∧ ∀ m', ¬ NStep m m' := by
  by_contra hc
  have hstep : ∀ x : { m : NState N // NReach N m }, ∃ y : { m : NState N // NReach N m }, NStep x.1 y.1 := by
    intro x
    by_contra h
    exact hc ⟨x.1, x.2, fun m' hs => h ⟨⟨m', .step x.2 hs⟩, hs⟩⟩
  choose next hnext using hstep
  let e : Nat → { m : NState N // NReach N m } := fun k => Nat.rec ⟨_, .init⟩ (fun _ x => next x) k
  exact (C45_no_deadlock hp hf).2.1 (fun k => (e k).1) (e 0).2 fun k => hnext (e k)

/-- There are functions that meet the contract of `sort.Slice`. -/
theorem C48_witness {A : Type} : SortSlice fun (less : A → A → Bool) l => l.mergeSort fun a b => !less b a := by
  intro less l
  refine ⟨List.mergeSort_perm _ _, fun h => ?_⟩
  have := List.pairwise_mergeSort (le := fun a b => !less b a) ?_ ?_ l
  · exact this.imp fun h => by simpa using h
  · intro a b c h1 h2
    simp only [Bool.not_eq_true', Bool.not_eq_eq_eq_not, Bool.not_true] at h1 h2 ⊢
    by_contra hca
    simp only [Bool.not_eq_false] at hca
    -- `less c a`, not `less b a`, not `less c b`
    by_cases hab : less a b = true
    · have := h.trans c a b hca hab; rw [h2] at this; simp at this
    · by_cases hbc : less b c = true
      · have := h.trans b c a hbc hca; rw [h1] at this; simp at this
      · have := (h.incomp a b c (by simpa using hab) h1 (by simpa using hbc) h2).2
        rw [hca] at this; simp at this
  · intro a b
    by_cases hab : less a b = true
    · have : less b a = false := by
        by_contra hba
        have := h.trans a b a hab (by simpa using hba)
        rw [h.irrefl] at this; simp at this
      simp [this]
    · simp [hab]

example : [3, 1, 2].mergeSort (fun a b => !decide (b < a)) = [1, 2, 3] := by simp [List.mergeSort]

/-! ### A program for the examples -/

/-- The number of an element. -/
def num : Val Nat → Nat
  | .atom n => n
  | _ => 0

/-- Of(1, 2, 3), Map(add one) with one worker, Walk(send twice, and panic for 2) with two, Distinct(modulo 3), Sort(<), Limit(7), Group(modulo 2), Split(2),
GroupBy(number). -/
def demoOps : List (Op Nat Nat) := [.map (fun v => some (.atom (num v + 1))) [], .walk (fun v => ⟨[v, v], num v == 2⟩) [.workSize 2], .distinct (fun v => num v % 3),
  .sort (fun less l => l.mergeSort fun a b => !less b a) (fun a b => num a < num b), .limit 7, .group (fun v => num v % 2) id, .split 2]

/-- For the concrete cases beside the theorems. -/
def demoNet : Net (Val Nat) (Ev Nat Nat) := ((program (.of [.atom 1, .atom 2, .atom 3]) demoOps (.groupBy num)).get (by rfl))

/-- For the concrete cases beside the theorems. -/
def demoNodes : Nat → Node Nat Nat := pipeNodes (.of [.atom 1, .atom 2, .atom 3]) demoOps (.groupBy num)

theorem demo_program : program (.of [.atom 1, .atom 2, .atom 3]) demoOps (.groupBy num) = some demoNet := rfl

theorem demo_valid : ∀ o ∈ demoOps, o.Valid := by
  intro o ho
  simp only [demoOps, List.mem_cons, List.not_mem_nil, or_false] at ho
  rcases ho with rfl | rfl | rfl | rfl | rfl | rfl | rfl
  · trivial
  · trivial
  · trivial
  · exact C48_witness
  · show (7 : Int) < 2 ^ 63; omega
  · exact fun _ => .refl _
  · show (2 : Int) < 2 ^ 63; omega

theorem demo_is : IsProgram demoNet demoNodes := (program_is demo_program demo_valid).1

theorem demo_few : FewValues demoNet := program_few (b := 2) demo_program demo_valid (by omega) (by
    intro o ho
    simp only [demoOps, List.mem_cons, List.not_mem_nil, or_false] at ho
    rcases ho with rfl | rfl | rfl | rfl | rfl | rfl | rfl <;> first | trivial | exact fun _ => Nat.le_refl 2)
  (by simp [Source.items, demoOps])

example := (ends demo_is demo_few).imp fun _ h => (C44_close_once demo_is demo_few h.1).2.2 h.2

example := C45_no_deadlock demo_is demo_few

/-- Every node does what its specification says (`Node.Does`), in every execution that has ended. -/
theorem C43_nodes (hp : IsProgram N node) (hf : FewValues N) {m : NState N} (hr : NReach N m) (hend : ∀ m', ¬ NStep m m') {i : Nat} (hi : i < N.n) :
    (node i).Does (m.hist i).ins (m.hist i).outs (m.hist i).log :=
  (final hp.wf hf hp.good hr (stuck_done hp.wf hf hp.good hr hend)).1 i hi

example := (ends demo_is demo_few).imp fun _ h => C43_nodes demo_is demo_few h.1 h.2 (i := 6) (by decide)

omit [DecidableEq K] in
/-- Steps of a finished network: there are none, for the components of these programs. -/
theorem done_of_end {m : NState N} (h : ∀ m', ¬ NStep m m') {m' : NState N} (hs : Relation.ReflTransGen NStep m m') : m' = m := by
  induction hs with
  | refl => rfl
  | tail _ hst ih => subst ih; exact absurd hst (h _)

/-! ## C43: operations that preserve order -/

/-- The list operation computed by the operations that preserve the order. -/
def Op.list : Op α K → Option (List (Val α) → List (Val α))
  | .buffer _ => some id
  | .peek => some id
  | .distinct f => some (firstPerKey f)
  | .split n => some fun xs => (chunks n.toNat xs).map .slice
  | .splitSteam n => some fun xs => (chunks n.toNat xs).map .stream
  | .skip n => some fun xs => xs.drop n.toNat
  | .limit n => some fun xs => xs.take n.toNat
  | .tail n => some fun xs => lastN n.toNat xs
  | .merge => some fun xs => [.slice xs]
  | .reverse => some List.reverse
  | _ => none

/-- C43: for every order preserving operation in a program, under every schedule: at every moment what has been sent downstream is a prefix of
the list operation applied to some continuation of what was received, and when the execution has ended it is exactly the list operation
applied to all that upstream has sent. -/
theorem C43_order_preserving (hp : IsProgram N node) (hf : FewValues N) {m : NState N} (hr : NReach N m) {i : Nat} (hi : i < N.n)
    {o : Op α K} {f : List (Val α) → List (Val α)} (ho : node i = .op o) (hl : o.list = some f) :
    (∃ m', Relation.ReflTransGen NStep m m' ∧ (m.hist i).outs 0 <+: f ((m'.hist (N.src i 0).1).outs (N.src i 0).2)) ∧
    ((∀ m', ¬ NStep m m') → (m.hist i).outs 0 = f ((m.hist (N.src i 0).1).outs (N.src i 0).2)) := by
  have key : ∀ m, NReach N m → (∀ i < N.n, (N.comp i).done (m.st i)) → (m.hist i).outs 0 = f ((m.hist (N.src i 0).1).outs (N.src i 0).2) := by
    intro m hr hd
    obtain ⟨h1, h2⟩ := final hp.wf hf hp.good hr hd
    have h3 := h1 i hi
    rw [ho] at h3
    have hnin : 0 < (N.comp i).nin := by
      have := hp.built i hi
      rw [ho] at this
      rcases Op.build_shape this with ⟨h, -⟩ | ⟨C, h, h4, -⟩
      · simp at h
      · simp only [List.cons.injEq, and_true] at h; rw [h, h4]; omega
    rw [← h2 i hi 0 hnin]
    cases o <;> simp only [Op.list, Option.some.injEq, reduceCtorEq] at hl
    all_goals (subst hl; exact h3.1)
  refine ⟨?_, fun hend => key m hr (stuck_done hp.wf hf hp.good hr hend)⟩
  obtain ⟨m', hs, hd⟩ := reaches_end hp.wf hf hp.good hr
  refine ⟨m', hs, ?_⟩
  rw [← key m' (reach_steps hr hs) hd]
  exact (hist_steps hs i 0).1

example := (ends demo_is demo_few).imp fun _ h => (C43_order_preserving demo_is demo_few h.1 (i := 5) (by decide) (o := .limit 7) rfl rfl).2 h.2

/-- C43, C54: a whole pipeline. In every execution of a source, a chain of operations and a terminal operation that has ended, the events at
the terminal operation are what it does with the list that the chain of list operations makes of the elements of the source. -/
theorem C43_pipeline {src : Source α} {ops : List (Op α K)} {term : Term α K} (h : program src ops term = some N) (hv : ∀ o ∈ ops, o.Valid)
    (hf : FewValues N) {m : NState N} (hr : NReach N m) (hend : ∀ m', ¬ NStep m m') :
    ∃ zs logs, OpsDo ops src.items zs logs ∧ term.Does zs (m.hist (N.n - 1)).log ∧
      logs.flatten = (List.range (N.n - 2)).flatMap fun j => (m.hist (j + 1)).log := by
  have hp := (program_is h hv).1
  exact program_result h hv hf hr (stuck_done hp.wf hf hp.good hr hend)

example := (ends demo_is demo_few).imp fun _ h => C43_pipeline demo_program demo_valid demo_few h.1 h.2

/-- The parameters with which an operation panics. -/
def Op.Panics : Op α K → Prop
  | .split n | .splitSteam n => n < 1
  | .skip n | .limit n | .tail n => n < 0
  | _ => False

/-- C47, C83: building a pipeline panics exactly if some operation has a bad parameter. -/
theorem C83_panics (src : Source α) (ops : List (Op α K)) (term : Term α K) : program src ops term = none ↔ ∃ o ∈ ops, o.Panics := by
  have hop : ∀ o : Op α K, o.build = none ↔ o.Panics := by
    intro o
    cases o <;> simp only [Op.build, Op.Panics]
    case split n => by_cases h : n < 1 <;> simp [h]
    case splitSteam n => by_cases h : n < 1 <;> simp [h]
    case skip n =>
      by_cases h : n < 0
      · simp [h]
      · by_cases h0 : n = 0 <;> simp [h, h0]
    case limit n =>
      by_cases h0 : n = 0
      · simp [h0]
      · by_cases h : n < 0 <;> simp [h, h0]
    case tail n =>
      by_cases h : n ≤ 0
      · by_cases h0 : n = 0
        · simp [h0]
        · have : n < 0 := by omega
          simp [h, h0, this]
      · have : ¬ n < 0 := by omega
        simp [h, this]
    all_goals simp
  have hall : buildAll ops = none ↔ ∃ o ∈ ops, o.Panics := by
    induction ops with
    | nil => simp [buildAll]
    | cons o ops ih =>
      have := hop o
      cases ho : o.build with
      | none => simp [buildAll, ho, ← hop]
      | some a =>
        rw [ho] at this
        simp only [reduceCtorEq, false_iff] at this
        cases hb : buildAll ops with
        | none => rw [hb] at ih; simp only [true_iff] at ih; simp [buildAll, ho, hb, this]; simpa using ih
        | some b => rw [hb] at ih; simp only [reduceCtorEq, false_iff] at ih; simp [buildAll, ho, hb, this]; simpa using ih
  rw [← hall]
  simp [program]

example : program (α := Nat) (K := Nat) (.of []) [.limit 3, .split 0] .count = none := rfl

/-! ## C46: Distinct -/

omit [DecidableEq K] in
theorem C46_first_per_key {A : Type} [DecidableEq K] (f : A → K) (xs : List A) :
    (firstPerKey f xs).Sublist xs ∧ (firstPerKey f xs).Pairwise (fun a b => f a ≠ f b) ∧
    ∀ k, (firstPerKey f xs).find? (fun x => f x = k) = xs.find? (fun x => f x = k) := by
  induction xs with
  | nil => simp [firstPerKey]
  | cons x xs ih =>
    obtain ⟨h1, h2, h3⟩ := ih
    refine ⟨?_, ?_, ?_⟩
    · rw [firstPerKey]
      exact List.Sublist.cons_cons x (List.filter_sublist.trans h1)
    · rw [firstPerKey, List.pairwise_cons]
      refine ⟨?_, h2.filter _⟩
      intro b hb
      simp at hb
      exact Ne.symm hb.2
    · intro k
      rw [firstPerKey, List.find?_cons, List.find?_cons]
      by_cases e : f x = k
      · simp [e]
      · simp only [e, decide_false]
        rw [List.find?_filter, ← h3 k]
        congr 1
        funext y
        by_cases e2 : f y = k
        · subst e2; simp [Ne.symm e]
        · simp [e2]

example : firstPerKey (· % 3) [1, 4, 2, 7, 3, 5] = [1, 2, 3] := by decide

/-- C46: the output of Distinct is a subsequence of its input, has pairwise different keys, and contains for each key the first element with
that key. -/
theorem C46_distinct (hp : IsProgram N node) (hf : FewValues N) {m : NState N} (hr : NReach N m) (hend : ∀ m', ¬ NStep m m') {i : Nat} (hi : i < N.n)
    {f : Val α → K} (ho : node i = .op (.distinct f)) :
    ((m.hist i).outs 0).Sublist ((m.hist i).ins 0) ∧ ((m.hist i).outs 0).Pairwise (fun a b => f a ≠ f b) ∧
    ∀ k, ((m.hist i).outs 0).find? (fun x => f x = k) = ((m.hist i).ins 0).find? (fun x => f x = k) := by
  have h := C43_nodes hp hf hr hend hi
  rw [ho] at h
  rw [show (m.hist i).outs 0 = firstPerKey f ((m.hist i).ins 0) from h.1]
  exact C46_first_per_key f _

example := (ends demo_is demo_few).imp fun _ h => C46_distinct demo_is demo_few h.1 h.2 (i := 3) (by decide) (f := fun v => num v % 3) rfl

/-! ## C47: Split and SplitSteam -/

omit [DecidableEq K] in
theorem C47_chunks {A : Type} {n : Nat} (hn : 0 < n) (xs : List A) :
    (chunks n xs).flatten = xs ∧ (∀ c ∈ (chunks n xs).dropLast, c.length = n) ∧ ∀ c ∈ chunks n xs, 1 ≤ c.length ∧ c.length ≤ n := by
  induction xs using chunks.induct n with
  | case1 => simp [chunks]
  | case2 x xs h => omega
  | case3 x xs h ih =>
    obtain ⟨h1, h2, h3⟩ := ih
    rw [chunks, if_neg h]
    refine ⟨?_, ?_, ?_⟩
    · rw [List.flatten_cons, h1, List.take_append_drop]
    · intro c hc
      cases hch : chunks n ((x :: xs).drop n) with
      | nil => rw [hch] at hc; simp at hc
      | cons d ds =>
        have hlen : n ≤ (x :: xs).length := by
          by_contra hlt
          have : (x :: xs).drop n = [] := List.drop_eq_nil_of_le (by omega)
          rw [this] at hch
          simp [chunks] at hch
        rw [hch, List.dropLast_cons_of_ne_nil (by simp)] at hc
        rcases List.mem_cons.mp hc with rfl | hc
        · rw [List.length_take]; omega
        · exact h2 c (by rw [hch]; exact hc)
    · intro c hc
      rcases List.mem_cons.mp hc with rfl | hc
      · rw [List.length_take]; simp only [List.length_cons]; omega
      · exact h3 c hc

example : chunks 2 [1, 2, 3, 4, 5] = [[1, 2], [3, 4], [5]] := by simp [chunks]

/-- C47: Split(n) sends chunks: put together they are the input, all but the last have `n` elements, the last between 1 and `n`; SplitSteam
sends streams of such chunks and closes each of them once, in order. (`n < 1` panics: `C83_panics`.) -/
theorem C47_split (hp : IsProgram N node) (hf : FewValues N) {m : NState N} (hr : NReach N m) (hend : ∀ m', ¬ NStep m m') {i : Nat} (hi : i < N.n)
    {n : Int} (hn : 1 ≤ n) (ho : node i = .op (.split n) ∨ node i = .op (.splitSteam n)) :
    ∃ cs : List (List (Val α)), ((node i = .op (.split n) ∧ (m.hist i).outs 0 = cs.map .slice ∧ (m.hist i).log = []) ∨
        (node i = .op (.splitSteam n) ∧ (m.hist i).outs 0 = cs.map .stream ∧ (m.hist i).log = (List.range cs.length).map .closeChunk)) ∧
      cs.flatten = (m.hist i).ins 0 ∧ (∀ c ∈ cs.dropLast, (c.length : Int) = n) ∧ ∀ c ∈ cs, 1 ≤ c.length ∧ (c.length : Int) ≤ n := by
  have h := C43_nodes hp hf hr hend hi
  obtain ⟨h1, h2, h3⟩ := C47_chunks (show 0 < n.toNat by omega) ((m.hist i).ins 0)
  refine ⟨chunks n.toNat ((m.hist i).ins 0), ?_, h1, fun c hc => by have := h2 c hc; omega, fun c hc => by have := h3 c hc; omega⟩
  rcases ho with ho | ho
  · rw [ho] at h; exact .inl ⟨ho, h.1, h.2⟩
  · rw [ho] at h; exact .inr ⟨ho, h.1, h.2⟩

example := (ends demo_is demo_few).imp fun _ h => C47_split demo_is demo_few h.1 h.2 (i := 7) (by decide) (n := 2) (by omega) (.inl rfl)

/-! ## C48: Sort -/

/-- C48: given that `sort.Slice` sorts, Sort(less) sends a permutation of its input, in which no element is less than one before it if `less` is
a strict weak order. -/
theorem C48_sort (hp : IsProgram N node) (hf : FewValues N) {m : NState N} (hr : NReach N m) (hend : ∀ m', ¬ NStep m m') {i : Nat} (hi : i < N.n)
    {sortSlice : (Val α → Val α → Bool) → List (Val α) → List (Val α)} {less : Val α → Val α → Bool} (ho : node i = .op (.sort sortSlice less)) :
    ((m.hist i).outs 0).Perm ((m.hist i).ins 0) ∧ (StrictWeakOrder less → ((m.hist i).outs 0).Pairwise fun a b => less b a = false) := by
  have h := C43_nodes hp hf hr hend hi
  rw [ho] at h
  exact ⟨h.1, h.2.1⟩

example := (ends demo_is demo_few).imp fun _ h => C48_sort demo_is demo_few h.1 h.2 (i := 4) (by decide)
  (sortSlice := fun less l => l.mergeSort fun a b => !less b a) (less := fun a b => num a < num b) rfl

example : StrictWeakOrder fun a b : Val Nat => decide (num a < num b) := ⟨by simp, by simp; omega, by simp; omega⟩

omit [DecidableEq K] in
/-! ## C49, C50: Walk, Map, Filter, FlatMap -/

/-- What each call does, and the work size, for the operations built on Walk. -/
def Op.walkOf : Op α K → Option ((Val α → Body α) × Int)
  | .walk f opts => some (f, loadOptions opts)
  | .filter fn opts => some (Filter.body fn, loadOptions opts)
  | .map fn opts => some (Map.body fn, loadOptions opts)
  | .flatMap fn opts => some (FlatMap.body fn, loadOptions opts)
  | _ => none

/-- C49: at every moment at most `size` calls are running; when the execution has ended the function has been called exactly once for every
element, every call has ended (by a panic for the elements for which the function panics, see C101), and the output is an interleaving of
what the calls sent, so the same multiset. -/
theorem C49_walk (hp : IsProgram N node) (hf : FewValues N) {m : NState N} (hr : NReach N m) {i : Nat} (hi : i < N.n)
    {o : Op α K} {f : Val α → Body α} {size : Int} (ho : node i = .op o) (hw : o.walkOf = some (f, size)) :
    (((calls (m.hist i).log).length : Int) ≤ (endings (m.hist i).log).length + size) ∧
    ((∀ m', ¬ NStep m m') → (calls (m.hist i).log).Perm ((m.hist i).ins 0) ∧ 
      (endings (m.hist i).log).Perm (((m.hist i).ins 0).map fun v => (v, (f v).panics)) ∧
      Interleaving (((m.hist i).ins 0).map fun v => (f v).sends) ((m.hist i).outs 0) ∧
      ((m.hist i).outs 0).Perm (((m.hist i).ins 0).flatMap fun v => (f v).sends)) := by
  have hb := hp.built i hi
  rw [ho] at hb
  have hreach := (hp.inv hf hr).reach i hi
  constructor
  · have key : ∀ (C : Comp (Val α) (Ev α K)) (f : Val α → Body α) (opts : List Opt), C = walkC (loadOptions opts).toNat f → ∀ (s : C.σ) (h : Hist (Val α) (Ev α K)),
        CReach C s h → ((calls h.log).length : Int) ≤ (endings h.log).length + loadOptions opts := by
      rintro C f opts rfl s h hr
      have := walk_running hr
      have := loadOptions_pos opts
      omega
    cases o <;> simp only [Op.walkOf, Option.some.injEq, reduceCtorEq, Prod.mk.injEq] at hw
    all_goals
      simp only [Node.Builds, Op.build, Option.some.injEq, List.cons.injEq, and_true] at hb
      obtain ⟨-, rfl⟩ := hw
      exact key _ _ _ hb.symm _ _ hreach
  · intro hend
    have h := C43_nodes hp hf hr hend hi
    rw [ho] at h
    have hspec : ∃ size : Nat, WalkSpec size f ((m.hist i).ins 0) ((m.hist i).outs 0) (m.hist i).log := by
      cases o <;> simp only [Op.walkOf, Option.some.injEq, reduceCtorEq, Prod.mk.injEq] at hw
      all_goals
        obtain ⟨rfl, -⟩ := hw
        exact ⟨_, h⟩
    obtain ⟨_, hs⟩ := hspec
    refine ⟨hs.called, hs.ended, hs.output, ?_⟩
    have := hs.output.perm
    rwa [← List.flatMap_def] at this

example := (ends demo_is demo_few).imp fun _ h => C49_walk demo_is demo_few h.1 (i := 2) (by decide) (o := .walk (fun v => ⟨[v, v], num v == 2⟩) [.workSize 2]) (size := 2) rfl rfl

/-- C50: with work size 1 the output is the concatenation, in order, of what the calls sent, and the calls run one after the other in the order
of the stream. -/
theorem C50_in_order (hp : IsProgram N node) (hf : FewValues N) {m : NState N} (hr : NReach N m) (hend : ∀ m', ¬ NStep m m') {i : Nat} (hi : i < N.n)
    {o : Op α K} {f : Val α → Body α} (ho : node i = .op o) (hw : o.walkOf = some (f, 1)) :
    (m.hist i).outs 0 = ((m.hist i).ins 0).flatMap (fun v => (f v).sends) ∧
    (m.hist i).log = ((m.hist i).ins 0).flatMap fun v => [.call v, (f v).ending v] := by
  have h := C43_nodes hp hf hr hend hi
  rw [ho] at h
  have hspec : WalkSpec 1 f ((m.hist i).ins 0) ((m.hist i).outs 0) (m.hist i).log := by
    cases o <;> simp only [Op.walkOf, Option.some.injEq, reduceCtorEq, Prod.mk.injEq] at hw
    all_goals
      obtain ⟨rfl, h1⟩ := hw
      simp only [Node.Does, Op.Does, h1] at h
      exact h
  exact hspec.inOrder rfl

example := (ends demo_is demo_few).imp fun _ h => C50_in_order demo_is demo_few h.1 h.2 (i := 1) (by decide) (o := .map (fun v => some (.atom (num v + 1))) []) rfl rfl

omit [DecidableEq K] in
/-- C50: one worker is the default; the last option counts, and sizes below one mean one. -/
theorem C50_options : loadOptions [] = 1 ∧ ∀ opts n, loadOptions (opts ++ [.workSize n]) = max 1 n ∧ loadOptions (opts ++ [.options n]) = max 1 n := by
  refine ⟨rfl, fun opts n => ?_⟩
  simp only [loadOptions, List.foldl_append, List.foldl_cons, List.foldl_nil]
  constructor <;> (split <;> omega)

example : loadOptions [.workSize 4, .workSize 3] = 3 ∧ loadOptions [.workSize (-4)] = 1 := by decide

/-! ## C51: Concat -/

/-- C51: what Concat sends is an interleaving of its inputs: all their elements, each input in its own order. -/
theorem C51_concat (hp : IsProgram N node) (hf : FewValues N) {m : NState N} (hr : NReach N m) (hend : ∀ m', ¬ NStep m m') {i : Nat} (hi : i < N.n)
    {n : Nat} (ho : node i = .concat n) :
    Interleaving ((List.range n).map (m.hist i).ins) ((m.hist i).outs 0) ∧
    ((m.hist i).outs 0).Perm (((List.range n).map (m.hist i).ins).flatten) ∧ ∀ p < n, ((m.hist i).ins p).Sublist ((m.hist i).outs 0) := by
  have h := C43_nodes hp hf hr hend hi
  rw [ho] at h
  refine ⟨h.1, h.1.perm, fun p hp' => h.1.sublist _ ?_⟩
  simp only [List.mem_map, List.mem_range]
  exact ⟨p, hp', rfl⟩

example := (ends (concatNet_program (K := Nat) [.of [.atom 1], .chan 2 [.atom 2, .nil]] .foreach) (concatNet_few _ _ (by simp [Source.items]))).imp
  fun _ h => C51_concat (concatNet_program _ _) (concatNet_few _ _ (by simp [Source.items])) h.1 h.2 (i := 2) (by decide) (n := 2) rfl

/-- C51 for the program `Concat(...)` of any sources followed by a terminal operation. -/
theorem C51_concat_program (srcs : List (Source α)) (term : Term α K) (hlt : (srcs.map fun s => s.items.length).sum < 2 ^ 63)
    {m : NState (concatNet srcs term)} (hr : NReach _ m) (hend : ∀ m', ¬ NStep m m') :
    ∃ zs, Interleaving (srcs.map Source.items) zs ∧ term.Does zs (m.hist (srcs.length + 1)).log := by
  have hp := concatNet_program srcs term
  have hf := concatNet_few srcs term hlt
  obtain ⟨f1, f2⟩ := final hp.wf hf hp.good hr (stuck_done hp.wf hf hp.good hr hend)
  have n1 : concatNodes (K := K) srcs term srcs.length = .concat srcs.length := by simp [concatNodes]
  have n2 : concatNodes srcs term (srcs.length + 1) = .term term := by simp [concatNodes]
  have h1 := f1 srcs.length (by show _ < srcs.length + 2; omega)
  have h2 := f1 (srcs.length + 1) (by show _ < srcs.length + 2; omega)
  rw [n1] at h1
  rw [n2] at h2
  have c1 : ((concatNet srcs term).comp srcs.length).nin = srcs.length := by simp [concatNet, concatC]
  have c2 : ((concatNet srcs term).comp (srcs.length + 1)).nin = 1 := by
    have : (concatNet srcs term).comp (srcs.length + 1) = term.comp := by
      simp only [concatNet]; rw [if_neg (by omega), if_neg (by omega)]
    rw [this]; exact (term_shape term).1
  have i1 : ∀ p < srcs.length, (m.hist srcs.length).ins p = (srcs.getD p (.of [])).items := by
    intro p hp'
    have e1 := f2 srcs.length (by show _ < srcs.length + 2; omega) p (by rw [c1]; exact hp')
    have e2 : (concatNet srcs term).src srcs.length p = (p, 0) := if_pos rfl
    have e3 := f1 p (by show _ < srcs.length + 2; omega)
    have e4 : concatNodes (K := K) srcs term p = .source (srcs.getD p (.of [])) := by simp only [concatNodes]; rw [if_pos hp']
    rw [e2] at e1
    rw [e4] at e3
    rw [e1]; exact e3.1
  have i2 : (m.hist (srcs.length + 1)).ins 0 = (m.hist srcs.length).outs 0 := by
    have e1 := f2 (srcs.length + 1) (by show _ < srcs.length + 2; omega) 0 (by rw [c2]; omega)
    have e2 : (concatNet srcs term).src (srcs.length + 1) 0 = (srcs.length, 0) := if_neg (by omega)
    rw [e2] at e1; exact e1
  refine ⟨(m.hist srcs.length).outs 0, ?_, ?_⟩
  · have h3 := h1.1
    have : (List.range srcs.length).map (m.hist srcs.length).ins = srcs.map Source.items := by
      apply List.ext_getElem
      · simp
      · intro p h4 h5
        simp only [List.getElem_map, List.getElem_range]
        rw [i1 p (by simpa using h5), List.getD_eq_getElem?_getD, List.getElem?_eq_getElem (by simpa using h5)]
        rfl
    rw [this] at h3
    exact h3
  · rw [← i2]; exact h2

example := (ends (concatNet_program (K := Nat) [.of [.atom 1], .chan 2 [.atom 2, .nil]] .foreach) (concatNet_few _ _ (by simp [Source.items]))).imp
  fun _ h => C51_concat_program (K := Nat) [.of [.atom 1], .chan 2 [.atom 2, .nil]] .foreach (by simp [Source.items]) h.1 h.2

/-! ## C52: Copy -/

omit [DecidableEq K] in
/-- C52: Copy makes one channel of the requested capacity for every entry of the map, and panics if some capacity is negative. -/
theorem C52_channels {M : Type} [DecidableEq M] {sortSlice : (M × Nat → M × Nat → Bool) → List (M × Nat) → List (M × Nat)} (hs : SortSlice sortSlice) (params : GMap M Int) :
    (copyChannels sortSlice params = none ↔ ∃ p ∈ params, p.2 < 0) ∧
    ∀ channels, copyChannels sortSlice params = some channels → (channels.map fun c => (c.1, (c.2 : Int))).Perm params := by
  have e : (params.any fun p => decide (p.2 < 0)) = true ↔ ∃ p ∈ params, p.2 < 0 := by simp
  constructor
  · unfold copyChannels
    by_cases h : (params.any fun p => decide (p.2 < 0)) = true
    · rw [if_pos h]; simpa using e.mp h
    · rw [if_neg h]; simpa using fun h' => h (e.mpr h')
  · intro channels h
    unfold copyChannels at h
    by_cases h0 : (params.any fun p => decide (p.2 < 0)) = true
    · rw [if_pos h0] at h; simp at h
    · rw [if_neg h0] at h
      simp only [Option.some.injEq] at h
      subst h
      refine ((hs _ _).1.map _).trans ?_
      rw [List.map_map]
      have : params.map ((fun c : M × Nat => (c.1, (c.2 : Int))) ∘ fun p => (p.1, p.2.toNat)) = params := by
        conv => rhs; rw [← List.map_id params]
        apply List.map_congr_left
        intro p hp
        have : ¬ p.2 < 0 := fun hlt => h0 (e.mpr ⟨p, hp, hlt⟩)
        have h2 : (p.2.toNat : Int) = p.2 := by omega
        simp [h2]
      rw [this]

example : copyChannels (fun less l => l.mergeSort fun a b => !less b a) [("a", 0), ("b", 3)] = some [("b", 3), ("a", 0)] := by
  simp [copyChannels, List.mergeSort]

/-- C52: every copy receives exactly the source, in order, whatever the capacities and whatever the consumers do, and Copy ends. -/
theorem C52_copy {M : Type} (src : Source α) (channels : List (M × Nat)) (terms : Nat → Term α K) (hlt : src.items.length < 2 ^ 63)
    {m : NState (copyNet src channels terms)} (hr : NReach _ m) :
    (∀ q < channels.length, (m.hist 1).outs q <+: src.items) ∧
    ((∀ m', ¬ NStep m m') → ∀ q < channels.length, (m.hist 1).outs q = src.items ∧ (m.hist (q + 2)).ins 0 = src.items ∧
      (terms q).Does src.items (m.hist (q + 2)).log) := by
  have hp := copyNet_program src channels terms
  have hf := copyNet_few src channels terms hlt
  have key : ∀ m : NState (copyNet src channels terms), NReach _ m → (∀ i < (copyNet src channels terms).n, ((copyNet src channels terms).comp i).done (m.st i)) →
      ∀ q < channels.length, (m.hist 1).outs q = src.items ∧ (m.hist (q + 2)).ins 0 = src.items ∧ (terms q).Does src.items (m.hist (q + 2)).log := by
    intro m hr hd q hq
    obtain ⟨f1, f2⟩ := final hp.wf hf hp.good hr hd
    have h0 := f1 0 (by show _ < channels.length + 2; omega)
    have h1 := f1 1 (by show _ < channels.length + 2; omega)
    have h2 := f1 (q + 2) (by show _ < channels.length + 2; omega)
    have n2 : copyNodes src channels terms (q + 2) = .term (terms q) := by simp [copyNodes]
    rw [n2] at h2
    have i1 : (m.hist 1).ins 0 = (m.hist 0).outs 0 := f2 1 (by show _ < channels.length + 2; omega) 0 (by simp [copyNet, Seq.comp, copyS])
    have i2 : (m.hist (q + 2)).ins 0 = (m.hist 1).outs q := by
      have c2 : ((copyNet src channels terms).comp (q + 2)).nin = 1 := by
        have : (copyNet src channels terms).comp (q + 2) = (terms q).comp := by simp [copyNet]
        rw [this]; exact (term_shape _).1
      have e1 := f2 (q + 2) (by show _ < channels.length + 2; omega) 0 (by rw [c2]; omega)
      have e2 : (copyNet src channels terms).src (q + 2) 0 = (1, q) := by
        show (if q + 2 = 1 then (0, 0) else (1, q + 2 - 2)) = _
        rw [if_neg (by omega), Nat.add_sub_cancel]
      rw [e2] at e1; exact e1
    have o1 : (m.hist 1).outs q = src.items := by
      rw [show (m.hist 1).outs q = (m.hist 1).ins 0 from h1.1 q hq, i1]; exact h0.1
    refine ⟨o1, i2.trans o1, ?_⟩
    rw [← o1, ← i2]; exact h2
  refine ⟨?_, fun hend => key m hr (stuck_done hp.wf hf hp.good hr hend)⟩
  intro q hq
  obtain ⟨m', hs, hd⟩ := reaches_end hp.wf hf hp.good hr
  rw [← (key m' (reach_steps hr hs) hd q hq).1]
  exact (hist_steps hs 1 q).1

example := (ends (copyNet_program (K := Nat) (.gen [.atom 1, .atom 2]) [("a", 0), ("b", 3)] fun _ => .count) (copyNet_few _ _ _ (by simp [Source.items]))).imp
  fun _ h => (C52_copy (K := Nat) (.gen [.atom 1, .atom 2]) [("a", 0), ("b", 3)] (fun _ => .count) (by simp [Source.items]) h.1).2 h.2

/-! ## C53: Group and GroupBy -/

/-- C53: Group sends one slice per key, whatever the iteration order of the map: the groups are non-empty, the group of a key holds the elements
with that key in the order of the stream, and so the groups together are the stream. -/
theorem C53_group (hp : IsProgram N node) (hf : FewValues N) {m : NState N} (hr : NReach N m) (hend : ∀ m', ¬ NStep m m') {i : Nat} (hi : i < N.n)
    {f : Val α → K} {order : GMap K (List (Val α)) → GMap K (List (Val α))} (ho : node i = .op (.group f order)) :
    ∃ g : List (K × List (Val α)), (m.hist i).outs 0 = g.map (fun p => .slice p.2) ∧ (g.map Prod.fst).Nodup ∧
      (∀ k, k ∈ g.map Prod.fst ↔ ∃ x ∈ (m.hist i).ins 0, f x = k) ∧
      ∀ p ∈ g, p.2 = ((m.hist i).ins 0).filter (fun x => f x = p.1) ∧ p.2 ≠ [] := by
  have h := C43_nodes hp hf hr hend hi
  rw [ho] at h
  obtain ⟨⟨g, ⟨hw, hg⟩, h1⟩, -⟩ := h
  refine ⟨g, h1, hw, ?_, fun p hp' => (hg p.1 p.2).mp hp'⟩
  intro k
  constructor
  · intro hk
    obtain ⟨⟨k', l⟩, hm, rfl⟩ := List.mem_map.mp hk
    obtain ⟨rfl, hne⟩ := (hg _ _).mp hm
    obtain ⟨x, hx⟩ := List.exists_mem_of_ne_nil _ hne
    simp at hx
    exact ⟨x, hx.1, hx.2⟩
  · rintro ⟨x, hx, rfl⟩
    refine List.mem_map.mpr ⟨(f x, ((m.hist i).ins 0).filter fun y => f y = f x), (hg _ _).mpr ⟨rfl, ?_⟩, rfl⟩
    exact List.ne_nil_of_mem (a := x) (by simp [hx])

example := (ends demo_is demo_few).imp fun _ h => C53_group demo_is demo_few h.1 h.2 (i := 6) (by decide) (f := fun v => num v % 2) (order := id) rfl

/-- C53: the collector of GroupBy returns these groups as a map; calling `Map` again returns the same map and reads nothing more. -/
theorem C53_group_by (hp : IsProgram N node) (hf : FewValues N) {m : NState N} (hr : NReach N m) (hend : ∀ m', ¬ NStep m m') {i : Nat} (hi : i < N.n)
    {f : Val α → K} (ho : node i = .term (.groupBy f)) :
    ∃ g : GMap K (List (Val α)), (m.hist i).log = [.ret (.groups g)] ∧ GMap.WF g ∧
      ∀ k l, (k, l) ∈ g ↔ l = ((m.hist i).ins 0).filter (fun x => f x = k) ∧ l ≠ [] := by
  have h := C43_nodes hp hf hr hend hi
  rw [ho] at h
  obtain ⟨g, ⟨hw, hg⟩, h1⟩ := h
  exact ⟨g, h1, hw, hg⟩

example := (ends demo_is demo_few).imp fun _ h => C53_group_by demo_is demo_few h.1 h.2 (i := 8) (by decide) (f := num) rfl

theorem C53_map_again (f : Val α → K) (g : GroupC α K) (items more : List (Val α)) :
    ((g.map f items).1.map f more).2.1 = (g.map f items).2.1 ∧ ((g.map f items).1.map f more).2.2 = more ∧
    (g.groups = none → IsGrouping f items (g.map f items).2.1 ∧ (g.map f items).2.2 = []) := by
  obtain ⟨groups⟩ := g
  cases groups with
  | none =>
    refine ⟨rfl, rfl, fun _ => ⟨?_, rfl⟩⟩
    have := groupLoop_groups f items [] [] (groups_nil f)
    simpa [GroupC.map] using groups_is this
  | some m => exact ⟨rfl, rfl, by simp⟩

example : ((⟨none⟩ : GroupC Nat Nat).map (fun v => num v % 2) [.atom 1, .atom 2, .atom 3]).2.1 = [(1, [.atom 1, .atom 3]), (0, [.atom 2])] := rfl

/-! ## C54: terminal operations -/

/-- C54: what each terminal operation has called and returned when the execution has ended; `xs` is the stream. -/
theorem C54_terminals (hp : IsProgram N node) (hf : FewValues N) {m : NState N} (hr : NReach N m) (hend : ∀ m', ¬ NStep m m') {i : Nat} (hi : i < N.n)
    {t : Term α K} (ho : node i = .term t) :
    let xs := (m.hist i).ins 0
    let log := (m.hist i).log
    (t = .count → log = [.ret (.int xs.length)]) ∧
    (t = .foreach → log = xs.map .call ++ [.ret .unit]) ∧
    (t = .foreachOrdered → log = xs.reverse.map .call ++ [.ret .unit]) ∧
    (t = .done → log = [.ret .unit]) ∧
    (∀ p, t = .anyMach p → ∃ called, calls log = called ∧ log = called.map .call ++ [.ret (.bool (xs.any p))] ∧ called <+: xs ∧
      (∀ x ∈ called.dropLast, p x = false) ∧ (xs.any p = false → called = xs)) ∧
    (∀ p, t = .allMach p → ∃ called, calls log = called ∧ log = called.map .call ++ [.ret (.bool (xs.all p))] ∧ called <+: xs ∧
      (∀ x ∈ called.dropLast, p x = true) ∧ (xs.all p = true → called = xs)) ∧
    (t = .findFirst → (xs = [] ∧ log = [.ret .noElement]) ∨ ∃ x rest, xs = x :: rest ∧ log = [.ret (.elem x)]) ∧
    (t = .findLast → (xs = [] ∧ log = [.ret .noElement]) ∨ ∃ x rest, xs = rest ++ [x] ∧ log = [.ret (.elem x)]) := by
  have h := C43_nodes hp hf hr hend hi
  rw [ho] at h
  have hcalls : ∀ (l : List (Val α)) (b : Bool), calls (l.map Ev.call ++ [Ev.ret (.bool b)] : List (Ev α K)) = l := by
    intro l b
    induction l with
    | nil => rfl
    | cons x l ih => simpa [calls] using ih
  have hup : ∀ (p : Val α → Bool) (xs : List (Val α)), upTo p xs <+: xs ∧ (∀ x ∈ (upTo p xs).dropLast, p x = false) ∧ (xs.any p = false → upTo p xs = xs) := by
    intro p xs
    induction xs with
    | nil => simp [upTo]
    | cons x xs ih =>
      obtain ⟨h1, h2, h3⟩ := ih
      unfold upTo
      by_cases e : p x = true
      · simp [e]
      · rw [if_neg e]
        refine ⟨by simpa using h1, ?_, ?_⟩
        · intro y hy
          cases hu : upTo p xs with
          | nil => rw [hu] at hy; simp at hy
          | cons z zs =>
            rw [hu, List.dropLast_cons_of_ne_nil (by simp)] at hy
            rcases List.mem_cons.mp hy with rfl | hy
            · simpa using e
            · exact h2 y (by rw [hu]; exact hy)
        · intro ha
          rw [List.any_cons, Bool.or_eq_false_iff] at ha
          rw [h3 ha.2]
  refine ⟨?_, ?_, ?_, ?_, ?_, ?_, ?_, ?_⟩
  · rintro rfl; exact h
  · rintro rfl; exact h
  · rintro rfl; exact h
  · rintro rfl; exact h
  · rintro p rfl
    have h : (m.hist i).log = (upTo p ((m.hist i).ins 0)).map .call ++ [.ret (.bool (((m.hist i).ins 0).any p))] := h
    exact ⟨_, by rw [h, hcalls], h, hup p _⟩
  · rintro p rfl
    have h : (m.hist i).log = (upTo (fun x => !p x) ((m.hist i).ins 0)).map .call ++ [.ret (.bool (((m.hist i).ins 0).all p))] := h
    obtain ⟨u1, u2, u3⟩ := hup (fun x => !p x) ((m.hist i).ins 0)
    refine ⟨_, by rw [h, hcalls], h, u1, fun x hx => by simpa using u2 x hx, fun ha => u3 ?_⟩
    rw [List.all_eq_not_any_not] at ha
    simpa using ha
  · rintro rfl
    have h : (m.hist i).log = [.ret (match ((m.hist i).ins 0).head? with | some v => .elem v | none => .noElement)] := h
    show ((m.hist i).ins 0 = [] ∧ _) ∨ _
    cases e : (m.hist i).ins 0 with
    | nil => rw [e] at h; exact .inl ⟨rfl, h⟩
    | cons x rest => rw [e] at h; exact .inr ⟨x, rest, rfl, h⟩
  · rintro rfl
    have h : (m.hist i).log = [.ret (match ((m.hist i).ins 0).getLast? with | some v => .elem v | none => .noElement)] := h
    show ((m.hist i).ins 0 = [] ∧ _) ∨ _
    rcases List.eq_nil_or_concat ((m.hist i).ins 0) with e | ⟨rest, x, e⟩
    · rw [e] at h; exact .inl ⟨e, h⟩
    · rw [e] at h
      refine .inr ⟨x, rest, by simpa using e, ?_⟩
      simpa using h

example := (ends demo_is demo_few).imp fun _ h => C54_terminals demo_is demo_few h.1 h.2 (i := 8) (by decide) (t := .groupBy num) rfl

end Verif.XStream

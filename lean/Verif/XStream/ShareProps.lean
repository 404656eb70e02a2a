import Verif.XStream.ShareLemmas
import Verif.XStream.Props
/-! # C121: several readers of one stream -/
namespace Verif.XStream
open Verif.Go Verif.Conc.Net

variable {α K : Type} [DecidableEq K]

theorem Op.build_nin_nout {o : Op α K} {C : Comp (Val α) (Ev α K)} (h : o.build = some [C]) : C.nin = 1 ∧ C.nout = 1 := by
  rcases Op.build_shape h with ⟨h, _⟩ | ⟨C', h, h1, h2⟩
  · simp at h
  · cases h; exact ⟨h1, h2⟩

/-- Every reader is a correct component. -/
theorem readersOf_good {ops : List (Op α K)} {terms : List (Term α K)} {Cs : Nat → Comp (Val α) (Ev α K)} (h : ReadersOf ops terms Cs)
    (hv : ∀ o ∈ ops, o.Valid) (h1 : 1 ≤ ops.length + terms.length) :
    RGood lim ops.length (ops.length + terms.length) Cs fun q ins outs log =>
      (∀ o : Op α K, ops[q]? = some o → o.Does (ins 0) (outs 0) log) ∧ ∀ t : Term α K, ops.length ≤ q → terms[q - ops.length]? = some t → t.Does (ins 0) log := by
  have both : ∀ q < ops.length + terms.length, (∃ o, ops[q]? = some o ∧ q < ops.length) ∨ ∃ t, terms[q - ops.length]? = some t ∧ ops.length ≤ q := by
    intro q hq
    by_cases hlt : q < ops.length
    · exact .inl ⟨_, List.getElem?_eq_getElem hlt, hlt⟩
    · exact .inr ⟨_, List.getElem?_eq_getElem (by omega), by omega⟩
  have hterm : ∀ (q : Nat) (t : Term α K), ops.length ≤ q → terms[q - ops.length]? = some t → Cs q = t.comp := by
    intro q t hle ht
    have := h.2 _ t ht
    rwa [show ops.length + (q - ops.length) = q by omega] at this
  refine ⟨h1, by omega, ?_, ?_, ?_⟩
  · intro q hq
    rcases both q hq with ⟨o, ho, _⟩ | ⟨t, ht, hle⟩
    · exact (Op.build_nin_nout (h.1 q o ho)).1
    · rw [hterm q t hle ht]; exact (term_shape t).1
  · intro q hq
    rcases both q hq with ⟨o, ho, hlt⟩ | ⟨t, ht, hle⟩
    · rw [if_pos hlt]; exact (Op.build_nin_nout (h.1 q o ho)).2
    · rw [if_neg (by omega), hterm q t hle ht]; exact (term_shape t).2
  · intro q hq
    rcases both q hq with ⟨o, ho, hlt⟩ | ⟨t, ht, hle⟩
    · refine Good.imp (op_good (h.1 q o ho) (hv o (List.mem_of_getElem? ho))) ?_
      rintro ins outs log _ hd
      exact ⟨fun o' ho' => by rw [ho] at ho'; cases ho'; exact hd, fun t hle _ => absurd hle (by omega)⟩
    · have := hterm q t hle ht
      generalize Cs q = C at this
      subst this
      refine Good.imp (term_good t) ?_
      rintro ins outs log _ hd
      refine ⟨fun o' ho' => ?_, fun t' _ ht' => by rw [ht] at ht'; cases ht'; exact hd⟩
      have := (List.getElem?_eq_some_iff.1 ho').1
      omega

theorem snode_good {nd : SNode α K} {C : Comp (Val α) (Ev α K)} (hb : nd.Builds C) (hv : nd.Valid) : Good lim C nd.Does := by
  cases nd with
  | node nd => exact node_good hb hv
  | readers ops terms =>
    obtain ⟨Cs, h, rfl⟩ := hb
    refine Good.imp (readers_good (readersOf_good h hv.1 hv.2)) ?_
    rintro ins outs log _ ⟨hs, h1, h2, h3, h4⟩
    refine ⟨fun q => (hs q).ins 0, fun q => (hs q).log, h1, h2, ?_, ?_⟩
    · intro q o ho
      have hlt := (List.getElem?_eq_some_iff.1 ho).1
      rw [h3 q hlt]
      exact (h4 q (by omega)).1 o ho
    · intro q t ht
      have hlt := (List.getElem?_eq_some_iff.1 ht).1
      exact (h4 (ops.length + q) (by omega)).2 t (by omega) (by rw [show ops.length + q - ops.length = q by omega]; exact ht)

section
variable {N : Net (Val α) (Ev α K)} {node : Nat → SNode α K}

theorem IsShared.good (hp : IsShared N node) : ∀ i < N.n, Good lim (N.comp i) (node i).Does := fun i hi => snode_good (hp.built i hi) (hp.valid i hi)

/-- C121: a program in which streams have several readers never panics; every execution of it is finite, and can be continued until all its
goroutines have ended; it can stop only then. -/
theorem C121_ends (hp : IsShared N node) (hf : FewValues N) :
    (∀ m, NReach N m → m.crashed = false) ∧
    (∀ e : Nat → NState N, NReach N (e 0) → ¬ ∀ k, NStep (e k) (e (k + 1))) ∧
    (∀ m, NReach N m → ∃ m', Relation.ReflTransGen NStep m m' ∧ ∀ i < N.n, (N.comp i).done (m'.st i)) ∧
    ∀ m, NReach N m → (∀ m', ¬ NStep m m') → ∀ i < N.n, (N.comp i).done (m.st i) :=
  ⟨fun _ hr => (inv hp.wf hf hp.good hr).ok, finite hp.wf hf hp.good, fun _ hr => reaches_end hp.wf hf hp.good hr,
    fun _ hr hend => stuck_done hp.wf hf hp.good hr hend⟩

/-- C121: when the program has stopped, every reader has handled its share of the stream, in the order of the stream; the shares together
are the stream that its producer has sent. -/
theorem C121_shares (hp : IsShared N node) (hf : FewValues N) {m : NState N} (hr : NReach N m) (hend : ∀ m', ¬ NStep m m') {i : Nat} (hi : i < N.n) :
    (node i).Does (m.hist i).ins (m.hist i).outs (m.hist i).log ∧ (∀ q < (N.comp i).nout, m.closed i q = true) ∧
    ∀ p < (N.comp i).nin, (m.hist i).ins p = (m.hist (N.src i p).1).outs (N.src i p).2 := by
  have hd := stuck_done hp.wf hf hp.good hr hend
  have h := final hp.wf hf hp.good hr hd
  have hinv := inv hp.wf hf hp.good hr
  refine ⟨h.1 i hi, fun q hq => ?_, h.2 i hi⟩
  rw [hinv.cl i hi q hq]
  exact ((hp.good i hi).fin _ _ (hinv.reach i hi) (hf m hr i hi) (hd i hi)).2.1 q hq

/-- C121: no element is handled twice and none is lost. -/
theorem C121_exactly_once (hp : IsShared N node) (hf : FewValues N) {m : NState N} (hr : NReach N m) (hend : ∀ m', ¬ NStep m m') {i : Nat} (hi : i < N.n)
    {ops : List (Op α K)} {terms : List (Term α K)} (hnd : node i = .readers ops terms) :
    ∃ share : Nat → List (Val α), ((m.hist i).ins 0).Perm ((List.range (ops.length + terms.length)).flatMap share) ∧
      (∀ q < ops.length + terms.length, (share q).Sublist ((m.hist i).ins 0)) ∧
      (∀ (q : Nat) (o : Op α K), ops[q]? = some o → ∃ log, o.Does (share q) ((m.hist i).outs q) log) ∧
      ∀ (q : Nat) (t : Term α K), terms[q]? = some t → ∃ log, t.Does (share (ops.length + q)) log ∧ log.Sublist (m.hist i).log := by
  have h := (C121_shares hp hf hr hend hi).1
  rw [hnd] at h
  obtain ⟨share, logs, h1, h2, h3, h4⟩ := h
  refine ⟨share, by rw [List.flatMap_def]; exact h1.perm, fun q hq => h1.sublist _ (List.mem_map.2 ⟨q, List.mem_range.2 hq, rfl⟩),
    fun q o ho => ⟨_, h3 q o ho⟩, fun q t ht => ⟨_, h4 q t ht, h2.sublist _ (List.mem_map.2 ⟨_, List.mem_range.2 ?_, rfl⟩)⟩⟩
  have := (List.getElem?_eq_some_iff.1 ht).1
  omega

/-- C121: the results of several calls of `Count` on one stream add up to the number of its elements. -/
theorem C121_counts (hp : IsShared N node) (hf : FewValues N) {m : NState N} (hr : NReach N m) (hend : ∀ m', ¬ NStep m m') {i : Nat} (hi : i < N.n)
    {k : Nat} (hnd : node i = .readers [] (List.replicate k .count)) :
    ∃ ns : List Nat, ns.length = k ∧ ns.sum = ((m.hist i).ins 0).length ∧ (m.hist i).log.Perm (ns.map fun n : Nat => .ret (.int n)) := by
  have h := (C121_shares hp hf hr hend hi).1
  rw [hnd] at h
  obtain ⟨share, logs, h1, h2, _, h4⟩ := h
  simp only [List.length_nil, List.length_replicate, Nat.zero_add] at h1 h2 h4
  refine ⟨(List.range k).map fun q => (share q).length, by simp, ?_, ?_⟩
  · have := h1.perm.length_eq
    rw [this, List.length_flatten, List.map_map]; rfl
  · refine h2.perm.trans ?_
    have : (List.range k).map logs = (List.range k).map fun q => [.ret (.int (share q).length)] := by
      refine List.map_congr_left fun q hq => ?_
      exact h4 q .count (by rw [List.getElem?_replicate, if_pos (List.mem_range.1 hq)])
    rw [this, List.map_map, ← List.flatMap_def]
    have e : ∀ l : List Nat, (l.flatMap fun q => [(.ret (.int (share q).length) : Ev α K)]) = l.map ((fun n : Nat => .ret (.int n)) ∘ fun q => (share q).length) := by
      intro l
      induction l with
      | nil => rfl
      | cons a l ih => simp [List.flatMap_cons, ih]
    rw [e]

/-- C121: several calls of `Foreach` on one stream: the functions are called exactly once for every element, and all calls return. -/
theorem C121_foreach (hp : IsShared N node) (hf : FewValues N) {m : NState N} (hr : NReach N m) (hend : ∀ m', ¬ NStep m m') {i : Nat} (hi : i < N.n)
    {k : Nat} (hnd : node i = .readers [] (List.replicate k .foreach)) :
    (m.hist i).log.Perm (((m.hist i).ins 0).map .call ++ List.replicate k (.ret .unit)) := by
  have h := (C121_shares hp hf hr hend hi).1
  rw [hnd] at h
  obtain ⟨share, logs, h1, h2, _, h4⟩ := h
  simp only [List.length_nil, List.length_replicate, Nat.zero_add] at h1 h2 h4
  refine h2.perm.trans ?_
  have : (List.range k).map logs = (List.range k).map fun q => (share q).map .call ++ [.ret .unit] := by
    refine List.map_congr_left fun q hq => ?_
    exact h4 q .foreach (by rw [List.getElem?_replicate, if_pos (List.mem_range.1 hq)])
  rw [this]
  refine List.Perm.trans ?_ ((h1.perm.map (.call : Val α → Ev α K)).symm.append_right _)
  generalize hl : List.range k = l
  have hk : k = l.length := by rw [← hl, List.length_range]
  rw [hk]
  clear this hl hk
  induction l with
  | nil => simp
  | cons a l ih =>
    simp only [List.map_cons, List.flatten_cons, List.map_append, List.length_cons, List.replicate_succ, List.append_assoc]
    refine List.Perm.append_left _ ?_
    refine List.Perm.trans (List.Perm.cons _ ih) ?_
    exact List.perm_middle.symm
end

/-! ## A program -/

/-- A source whose stream has readers: operations, whose results are consumed by `sinks`, and terminal operations. -/
def shareNet (src : Source α) (ops : List (Op α K)) (terms : List (Term α K)) (Cs : Nat → Comp (Val α) (Ev α K)) (sinks : Nat → Term α K) : Net (Val α) (Ev α K) where
  n := ops.length + 2
  comp i := if i = 0 then src.comp else if i = 1 then readersC ops.length (ops.length + terms.length) Cs else (sinks (i - 2)).comp
  src i _ := if i = 1 then (0, 0) else (1, i - 2)
  dst i q := if i = 0 then (1, 0) else (q + 2, 0)

/-- The program: a source, operations on it, and several goroutines that use the same stream at the same time. -/
def shareNodes (src : Source α) (ops : List (Op α K)) (terms : List (Term α K)) (sinks : Nat → Term α K) (i : Nat) : SNode α K :=
  if i = 0 then .node (.source src) else if i = 1 then .readers ops terms else .node (.term (sinks (i - 2)))

section
variable {src : Source α} {ops : List (Op α K)} {terms : List (Term α K)} {Cs : Nat → Comp (Val α) (Ev α K)} {sinks : Nat → Term α K}

theorem shareNet_is (h : ReadersOf ops terms Cs) (hv : ∀ o ∈ ops, o.Valid) (h1 : 1 ≤ ops.length + terms.length) :
    IsShared (shareNet src ops terms Cs sinks) (shareNodes src ops terms sinks) := by
  have shape : ∀ i, ((shareNet src ops terms Cs sinks).comp i).nin = (if i = 0 then 0 else 1) ∧
      ((shareNet src ops terms Cs sinks).comp i).nout = (if i = 0 then 1 else if i = 1 then ops.length else 0) := by
    intro i
    simp only [shareNet]
    by_cases h : i = 0
    · simp only [if_pos h]; exact source_shape _
    · by_cases h2 : i = 1
      · simp only [if_neg h, if_pos h2]; exact ⟨rfl, rfl⟩
      · simp only [if_neg h, if_neg h2]; exact term_shape _
  refine ⟨⟨?_, ?_⟩, ?_, ?_⟩
  · intro i hi p hp
    have hi : i < ops.length + 2 := hi
    rw [(shape i).1] at hp
    by_cases h : i = 0
    · rw [if_pos h] at hp; omega
    · rw [if_neg h] at hp
      have hp0 : p = 0 := by omega
      subst hp0
      by_cases h2 : i = 1
      · have e : (shareNet src ops terms Cs sinks).src i 0 = (0, 0) := if_pos h2
        rw [e, (shape _).2, if_pos rfl]
        exact ⟨by show 0 < i; omega, by simp, by rw [h2]; rfl⟩
      · have e : (shareNet src ops terms Cs sinks).src i 0 = (1, i - 2) := if_neg h2
        rw [e, (shape _).2, if_neg (by simp), if_pos rfl]
        refine ⟨by show 1 < i; omega, by show i - 2 < ops.length; omega, ?_⟩
        show (if 1 = 0 then (1, 0) else (i - 2 + 2, 0)) = (i, 0)
        rw [if_neg (by omega), show i - 2 + 2 = i by omega]
  · intro i hi q hq
    have hi : i < ops.length + 2 := hi
    rw [(shape i).2] at hq
    by_cases h : i = 0
    · rw [if_pos h] at hq
      have hq0 : q = 0 := by omega
      subst hq0
      have e : (shareNet src ops terms Cs sinks).dst i 0 = (1, 0) := if_pos h
      rw [e, (shape _).1, if_neg (by simp)]
      exact ⟨by show 1 < ops.length + 2; omega, by simp, by rw [h]; rfl⟩
    · rw [if_neg h] at hq
      by_cases h2 : i = 1
      · rw [if_pos h2] at hq
        have e : (shareNet src ops terms Cs sinks).dst i q = (q + 2, 0) := if_neg h
        rw [e, (shape _).1, if_neg (by simp)]
        refine ⟨by show q + 2 < ops.length + 2; omega, by simp, ?_⟩
        show (if q + 2 = 1 then (0, 0) else (1, q + 2 - 2)) = (i, q)
        rw [if_neg (by omega), h2, Nat.add_sub_cancel]
      · rw [if_neg h2] at hq; omega
  · intro i hi
    simp only [shareNodes, shareNet]
    by_cases h0 : i = 0
    · simp only [if_pos h0]; rfl
    · by_cases h2 : i = 1
      · simp only [if_neg h0, if_pos h2]; exact ⟨Cs, h, rfl⟩
      · simp only [if_neg h0, if_neg h2]; rfl
  · intro i hi
    simp only [shareNodes]
    split
    · trivial
    · split
      · exact ⟨hv, h1⟩
      · trivial

theorem shareNet_few (h : ReadersOf ops terms Cs) (hv : ∀ o ∈ ops, o.Valid) (h1 : 1 ≤ ops.length + terms.length) {b : Nat} (hb : 1 ≤ b) (he : ∀ o ∈ ops, o.Emits b)
    (hlt : b * max 1 src.items.length < 2 ^ 63) : FewValues (shareNet src ops terms Cs sinks) := by
  have hp := shareNet_is (src := src) (sinks := sinks) h hv h1
  have hsrc : src.items.length ≤ b * max 1 src.items.length := Nat.le_trans (Nat.le_max_right 1 _) (Nat.le_mul_of_pos_left _ hb)
  refine small_of_bounded (b := fun i _ => if i = 0 then src.items.length else b * max 1 src.items.length) hp.wf ⟨?_, ?_⟩ hp.good
  · intro i hi q hq
    split
    · exact Nat.lt_of_le_of_lt hsrc hlt
    · exact hlt
  · intro i hi s hh hr hs hin q hq
    by_cases h0 : i = 0
    · have key : ∀ (src : Source α) (C : Comp (Val α) (Ev α K)), C = src.comp → ∀ (s : C.σ) (h : Hist (Val α) (Ev α K)), CReach C s h → Small lim C h →
          ∀ q < C.nout, (h.outs q).length ≤ src.items.length := by
        rintro src C rfl s h hr hs q hq
        cases src <;> exact (source_fine _ _).2.2 s h hr hs q hq
      have := key src _ (if_pos h0) s hh hr hs q hq
      simp only [if_pos h0]; exact this
    · simp only [if_neg h0]
      by_cases h2 : i = 1
      · have hC : (shareNet src ops terms Cs sinks).comp i = readersC ops.length (ops.length + terms.length) Cs := by
          simp only [shareNet]; rw [if_neg h0, if_pos h2]
        have hin0 := hin 0 (by rw [hC]; exact Nat.one_pos)
        have e : (shareNet src ops terms Cs sinks).src i 0 = (0, 0) := if_pos h2
        rw [e] at hin0
        simp only [if_true] at hin0
        generalize (shareNet src ops terms Cs sinks).comp i = C at *
        subst hC
        have hg := readersOf_good h hv h1
        obtain ⟨hs', hi'⟩ := rinv hg hr hs
        replace hq : q < ops.length := hq
        rw [hi'.sent q hq]
        have hqk : q < ops.length + terms.length := by omega
        have hbld := h.1 q _ (List.getElem?_eq_getElem hq)
        have hg1 := op_grows hbld (hv _ (by simp)) hb (he _ (by simp)) _ _ (hi'.reach q hqk) (hi'.small hg hs hqk) 0 (by rw [(Op.build_nin_nout hbld).2]; omega)
        rw [(Op.build_nin_nout hbld).1, if_neg (by omega)] at hg1
        have hsub := (hi'.ins.sublist ((hs' q).ins 0) (List.mem_map.2 ⟨q, List.mem_range.2 hqk, rfl⟩)).length_le
        refine Nat.le_trans hg1 (Nat.mul_le_mul_left _ ?_)
        omega
      · have hC : (shareNet src ops terms Cs sinks).comp i = (sinks (i - 2)).comp := by
          simp only [shareNet]; rw [if_neg h0, if_neg h2]
        rw [hC, (term_shape _).2] at hq; omega
end

theorem shared_ends {N : Net (Val α) (Ev α K)} {node : Nat → SNode α K} (hp : IsShared N node) (hf : FewValues N) : ∃ m, NReach N m ∧ ∀ m', ¬ NStep m m' := by
  by_contra hc
  have hstep : ∀ x : { m : NState N // NReach N m }, ∃ y : { m : NState N // NReach N m }, NStep x.1 y.1 := by
    intro x
    by_contra h
    exact hc ⟨x.1, x.2, fun m' hs => h ⟨⟨m', .step x.2 hs⟩, hs⟩⟩
  choose next hnext using hstep
  let e : Nat → { m : NState N // NReach N m } := fun k => Nat.rec ⟨_, .init⟩ (fun _ x => next x) k
  exact (C121_ends hp hf).2.1 (fun k => (e k).1) (e 0).2 fun k => hnext (e k)

/-! ### s := From(1, 2, 3); s.Reverse().Foreach(…), s.Split(2).FindFirst() and s.Count() at the same time -/

/-- For the concrete cases beside the theorems. -/
def shareDemoC (q : Nat) : Comp (Val Nat) (Ev Nat Nat) := if q = 0 then reverseS.comp else if q = 1 then (splitS 2).comp else countS.comp

theorem shareDemo_readers : ReadersOf (K := Nat) [.reverse, .split 2] [.count] shareDemoC := by
  constructor
  · rintro (_ | _ | q) o h
    · cases h; rfl
    · cases h; rfl
    · simp at h
  · rintro (_ | q) t h
    · cases h; rfl
    · simp at h

/-- For the concrete cases beside the theorems. -/
def shareDemo : Net (Val Nat) (Ev Nat Nat) :=
  shareNet (.of [.atom 1, .atom 2, .atom 3]) [.reverse, .split 2] [.count] shareDemoC fun q => if q = 0 then .foreach else .findFirst

theorem shareDemo_valid : ∀ o ∈ ([.reverse, .split 2] : List (Op Nat Nat)), o.Valid := by
  intro o ho
  simp only [List.mem_cons, List.not_mem_nil, or_false] at ho
  rcases ho with rfl | rfl
  · trivial
  · show (2 : Int) < 2 ^ 63; decide

theorem shareDemo_is : IsShared shareDemo (shareNodes (.of [.atom 1, .atom 2, .atom 3]) [.reverse, .split 2] [.count] fun q => if q = 0 then .foreach else .findFirst) := shareNet_is shareDemo_readers shareDemo_valid (by simp)

theorem shareDemo_few : FewValues shareDemo := shareNet_few (b := 1) shareDemo_readers shareDemo_valid (by simp) (by omega) (by
  intro o ho
  simp only [List.mem_cons, List.not_mem_nil, or_false] at ho
  rcases ho with rfl | rfl <;> trivial) (by simp [Source.items])

example := C121_ends shareDemo_is shareDemo_few
example := (shared_ends shareDemo_is shareDemo_few).imp fun _ h => C121_shares shareDemo_is shareDemo_few h.1 h.2 (i := 1) (by decide)
example := (shared_ends shareDemo_is shareDemo_few).imp fun _ h => C121_exactly_once shareDemo_is shareDemo_few h.1 h.2 (i := 1) (by decide) rfl

/-! ### s := From(1, 2, 3) and two calls of the same terminal operation on s at the same time -/

/-- For the concrete cases beside the theorems. -/
def shareTwo (t : Term Nat Nat) : Net (Val Nat) (Ev Nat Nat) :=
  shareNet (.of [.atom 1, .atom 2, .atom 3]) [] (List.replicate 2 t) (fun _ => t.comp) fun _ => .done

theorem shareTwo_readers (t : Term Nat Nat) : ReadersOf [] (List.replicate 2 t) fun _ => t.comp := by
  constructor
  · intro q o h; simp at h
  · intro q t' h
    rw [List.getElem?_replicate] at h
    split at h
    · cases h; rfl
    · simp at h

theorem shareTwo_is (t : Term Nat Nat) : IsShared (shareTwo t) (shareNodes (.of [.atom 1, .atom 2, .atom 3]) [] (List.replicate 2 t) fun _ => .done) := shareNet_is (shareTwo_readers t) (by simp) (by simp)

theorem shareTwo_few (t : Term Nat Nat) : FewValues (shareTwo t) := shareNet_few (b := 1) (shareTwo_readers t) (by simp) (by simp) (by omega) (by simp) (by simp [Source.items])

example := (shared_ends (shareTwo_is .count) (shareTwo_few .count)).imp fun _ h => C121_counts (shareTwo_is .count) (shareTwo_few .count) h.1 h.2 (i := 1) (by decide) rfl
example := (shared_ends (shareTwo_is .foreach) (shareTwo_few .foreach)).imp fun _ h => C121_foreach (shareTwo_is .foreach) (shareTwo_few .foreach) h.1 h.2 (i := 1) (by decide) rfl

/-- C121: it is false that every reader sees the whole stream: two calls of `Count` on the same stream of three elements end, and do not
both return 3. -/
theorem C121_whole_refuted : ∃ m : NState (shareTwo .count), NReach _ m ∧ (∀ m', ¬ NStep m m') ∧ (m.hist 0).outs 0 = [.atom 1, .atom 2, .atom 3] ∧
    (m.hist 1).log.length = 2 ∧ ¬ ∀ e ∈ (m.hist 1).log, e = .ret (.int 3) := by
  obtain ⟨m, hr, hend⟩ := shared_ends (shareTwo_is .count) (shareTwo_few .count)
  have h0 := C121_shares (shareTwo_is .count) (shareTwo_few .count) hr hend (i := 0) (by decide)
  have h1 := C121_shares (shareTwo_is .count) (shareTwo_few .count) hr hend (i := 1) (by decide)
  obtain ⟨ns, e1, e2, e3⟩ := C121_counts (shareTwo_is .count) (shareTwo_few .count) hr hend (i := 1) (by decide) (k := 2) rfl
  have ho : (m.hist 0).outs 0 = [.atom 1, .atom 2, .atom 3] := h0.1.1
  have hin : (m.hist 1).ins 0 = [.atom 1, .atom 2, .atom 3] := (h1.2.2 0 (by decide)).trans ho
  refine ⟨m, hr, hend, ho, by rw [e3.length_eq, List.length_map, e1], fun hall => ?_⟩
  rw [hin] at e2
  match ns, e1 with
  | [a, b], _ =>
    have ha := hall _ (e3.mem_iff.2 (List.mem_map.2 ⟨a, by simp, rfl⟩))
    have hb := hall _ (e3.mem_iff.2 (List.mem_map.2 ⟨b, by simp, rfl⟩))
    simp at ha hb e2
    omega

end Verif.XStream

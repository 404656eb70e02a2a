import Verif.XStream.PanicProps
/-!
# C101, C106: panics in the operations that run in the goroutine of the caller

`AnyMach`, `AllMach`, `Group` and the `Map` of a collector stop in the middle of the stream and leave the goroutines upstream behind;
`ForeachOrdered` and `Sort` have received the whole stream before they call their function. `Map` called again after a panic returns the groups
of the elements before the panic as if they were all (C106).
-/
namespace Verif.XStream
open Verif.Go Verif.Conc.Net

variable {α K : Type}

section
variable [DecidableEq K] {N : Net (Val α) (Ev α K)} {node : Nat → PNode α K}

/-! ## In any program -/

/-- C101, AnyMach (`want = true`) and AllMach (`want = false`): at the first element for which the predicate panics, if no element before decided the
result: the predicate has been called for the elements before, nothing more is received, the panic reaches the caller, there is no result. -/
theorem C101_mach (hp : IsPanicProgram N node) (hf : FewValues N) {m : NState N} (hr : NReach N m) {i : Nat} (hi : i < N.n) {bad : Val α → Bool} {want : Bool}
    {f : Val α → Bool} (hn : node i = .mach bad want f) {xs ys : List (Val α)} {v : Val α} (hins : (m.hist i).ins 0 = xs ++ v :: ys)
    (hxs : ∀ x ∈ xs, bad x = false ∧ f x ≠ want) (hv : bad v = true) :
    ys = [] ∧ ((m.hist i).log = xs.map .call ∨ (m.hist i).log = xs.map .call ++ [.panic v]) := by
  refine hp.at hf hr hi (Q := fun h => h.ins 0 = xs ++ v :: ys → ys = [] ∧ (h.log = xs.map .call ∨ h.log = xs.map .call ++ [.panic v])) ?_ hins
  rw [hn]
  rintro C rfl s h hr hins
  have := Seq.keeps (machP_init bad want f) (machP_keeps bad want f) hr
  have stop : ∀ {a b : List (Val α)} {w : Val α}, h.ins 0 = a ++ w :: b → Passes bad want f a → (bad w = true ∨ f w = want) → xs = a ∧ v = w ∧ ys = b := by
    intro a b w h1 h2 h3
    refine split_unique (p := fun x => bad x = true ∨ f x = want) (hins.symm.trans h1) ?_ (.inl hv) ?_ h3
    · intro x hx; have := hxs x hx; simp [this.1, this.2]
    · intro x hx; have := h2 x hx; simp [this.1, this.2]
  have all : ¬ Passes bad want f (h.ins 0) := by
    intro hall
    have := (hall v (by rw [hins]; simp)).1
    rw [hv] at this; simp at this
  have dec : ∀ {last : List (Ev α K)}, ¬ Decided bad want f h last := by
    rintro last ⟨a, w, b, h1, _, h2, h3, h4⟩
    obtain ⟨_, rfl, _⟩ := stop h1 h2 (.inr h4)
    rw [hv] at h3; simp at h3
  rcases s with _ | s
  · obtain ⟨_, a, w, h1, h2, h3, h4⟩ := this
    obtain ⟨rfl, rfl, rfl⟩ := stop h1 h3 (.inl h4)
    exact ⟨rfl, .inr h2⟩
  · cases s with
    | loop => exact absurd this.2.2 all
    | call w =>
      obtain ⟨_, a, h1, h2, h3⟩ := this
      by_cases hw : bad w = true ∨ f w = want
      · obtain ⟨rfl, rfl, rfl⟩ := stop h1 h3 hw
        exact ⟨rfl, .inl h2⟩
      · refine absurd ?_ all
        intro x hx
        rw [h1, List.mem_append, List.mem_singleton] at hx
        rcases hx with hx | rfl
        · exact h3 x hx
        · exact ⟨by simpa using fun h => hw (.inl h), fun h => hw (.inr h)⟩
    | ret r =>
      rcases this with ⟨_, _, _, h⟩ | ⟨_, _, h⟩
      · exact absurd h all
      · exact absurd h dec
    | drain => exact absurd this.2 dec
    | done =>
      rcases this with ⟨_, ⟨_, h⟩ | h⟩
      · exact absurd h all
      · exact absurd h dec

/-- C101, AnyMach and AllMach: if an element `v` decides the result before the predicate has panicked, no later element can disturb that, whether the
predicate would panic for it or not. -/
theorem C101_mach_decided (hp : IsPanicProgram N node) (hf : FewValues N) {m : NState N} (hr : NReach N m) {i : Nat} (hi : i < N.n) {bad : Val α → Bool} {want : Bool}
    {f : Val α → Bool} (hn : node i = .mach bad want f) {xs ys : List (Val α)} {v : Val α} (hins : (m.hist i).ins 0 = xs ++ v :: ys)
    (hxs : ∀ x ∈ xs, bad x = false ∧ f x ≠ want) (hv : bad v = false ∧ f v = want) :
    (m.hist i).log <+: xs.map .call ++ [.call v, .ret (.bool want)] := by
  refine hp.at hf hr hi (Q := fun h => h.ins 0 = xs ++ v :: ys → h.log <+: xs.map .call ++ [.call v, .ret (.bool want)]) ?_ hins
  rw [hn]
  rintro C rfl s h hr hins
  have := Seq.keeps (machP_init bad want f) (machP_keeps bad want f) hr
  have stop : ∀ {a b : List (Val α)} {w : Val α}, h.ins 0 = a ++ w :: b → Passes bad want f a → (bad w = true ∨ f w = want) → xs = a ∧ v = w ∧ ys = b := by
    intro a b w h1 h2 h3
    refine split_unique (p := fun x => bad x = true ∨ f x = want) (hins.symm.trans h1) ?_ (.inr hv.2) ?_ h3
    · intro x hx; have := hxs x hx; simp [this.1, this.2]
    · intro x hx; have := h2 x hx; simp [this.1, this.2]
  have all : ¬ Passes bad want f (h.ins 0) := fun hall => (hall v (by rw [hins]; simp)).2 hv.2
  rcases s with _ | s
  · obtain ⟨_, a, w, h1, h2, h3, h4⟩ := this
    obtain ⟨rfl, rfl, rfl⟩ := stop h1 h3 (.inl h4)
    rw [hv.1] at h4; simp at h4
  · cases s with
    | loop => exact absurd this.2.2 all
    | call w =>
      obtain ⟨_, a, h1, h2, h3⟩ := this
      by_cases hw : bad w = true ∨ f w = want
      · obtain ⟨rfl, rfl, rfl⟩ := stop h1 h3 hw
        rw [h2]; exact ⟨_, rfl⟩
      · refine absurd ?_ all
        intro x hx
        rw [h1, List.mem_append, List.mem_singleton] at hx
        rcases hx with hx | rfl
        · exact h3 x hx
        · exact ⟨by simpa using fun h => hw (.inl h), fun h => hw (.inr h)⟩
    | ret r =>
      rcases this with ⟨_, _, _, h⟩ | ⟨_, _, a, w, b, h1, h2, h3, h4, h5⟩
      · exact absurd h all
      · obtain ⟨rfl, rfl, rfl⟩ := stop h1 h3 (.inr h5)
        rw [h2]; exact ⟨[.ret (.bool want)], by simp⟩
    | drain =>
      obtain ⟨_, a, w, b, h1, h2, h3, h4, h5⟩ := this
      obtain ⟨rfl, rfl, rfl⟩ := stop h1 h3 (.inr h5)
      rw [h2]; exact ⟨[], by simp⟩
    | done =>
      rcases this with ⟨_, ⟨_, h⟩ | ⟨a, w, b, h1, h2, h3, h4, h5⟩⟩
      · exact absurd h all
      · obtain ⟨rfl, rfl, rfl⟩ := stop h1 h3 (.inr h5)
        rw [h2]; exact ⟨[], by simp⟩

/-- C101, GroupBy … Map and Group: at the first element for which the key function panics nothing more is received, the panic reaches the caller,
there is no result; a result is the grouping of the whole stream. -/
theorem C101_keyed (hp : IsPanicProgram N node) (hf : FewValues N) {m : NState N} (hr : NReach N m) {i : Nat} (hi : i < N.n) {f : Val α → Option K}
    (hn : node i = .keyed f) :
    (∀ xs v ys, (m.hist i).ins 0 = xs ++ v :: ys → (∀ x ∈ xs, f x ≠ none) → f v = none → ys = [] ∧ ((m.hist i).log = [] ∨ (m.hist i).log = [.panic v])) ∧
    (∀ r, .ret r ∈ (m.hist i).log → (m.hist i).eof 0 = true ∧ ∃ g, r = .groups g ∧ IsGroupingP f ((m.hist i).ins 0) g) := by
  refine hp.at hf hr hi (Q := fun h => (∀ xs v ys, h.ins 0 = xs ++ v :: ys → (∀ x ∈ xs, f x ≠ none) → f v = none → ys = [] ∧ (h.log = [] ∨ h.log = [.panic v])) ∧
    (∀ r, .ret r ∈ h.log → h.eof 0 = true ∧ ∃ g, r = .groups g ∧ IsGroupingP f (h.ins 0) g)) ?_
  rw [hn]
  rintro C rfl s h hr
  have := Seq.keeps (keyedP_init f) (keyedP_keeps f) hr
  have none_ : (∀ x ∈ h.ins 0, f x ≠ none) → ∀ xs v ys, h.ins 0 = xs ++ v :: ys → (∀ x ∈ xs, f x ≠ none) → f v = none → ys = [] ∧ (h.log = [] ∨ h.log = [.panic v]) := by
    intro hall xs v ys h1 _ h2
    exact absurd h2 (hall v (by rw [h1]; simp))
  cases s with
  | loop g => exact ⟨none_ this.2.2.2, fun r hm => by rw [this.2.1] at hm; simp at hm⟩
  | ret g => exact ⟨none_ this.2.2.2, fun r hm => by rw [this.2.1] at hm; simp at hm⟩
  | panicking w =>
    obtain ⟨h1, h2, a, h3, h4, h5⟩ := this
    refine ⟨fun xs v ys h6 h7 h8 => ?_, fun r hm => by rw [h2] at hm; simp at hm⟩
    obtain ⟨rfl, rfl, rfl⟩ := split_unique (p := fun x => f x = none) (h6.symm.trans h3) h7 h8 h5 h4
    exact ⟨rfl, .inl h2⟩
  | done =>
    rcases this with ⟨h1, ⟨g, h2, h3⟩, h4⟩ | ⟨h1, a, w, h2, h3, h4, h5⟩
    · refine ⟨none_ h4, fun r hm => ?_⟩
      rw [h2] at hm
      simp only [List.mem_singleton, Ev.ret.injEq] at hm
      exact ⟨h1, g, hm, groupsP_is h3⟩
    · refine ⟨fun xs v ys h6 h7 h8 => ?_, fun r hm => by rw [h3] at hm; simp at hm⟩
      obtain ⟨rfl, rfl, rfl⟩ := split_unique (p := fun x => f x = none) (h6.symm.trans h2) h7 h8 h5 h4
      exact ⟨rfl, .inr h3⟩

/-- C101, ForeachOrdered: nothing is called before the stream has ended; with `v` the last element for which the function panics, it is called for the
elements behind `v` from the last one on, then the panic reaches the caller. -/
theorem C101_ordered (hp : IsPanicProgram N node) (hf : FewValues N) {m : NState N} (hr : NReach N m) {i : Nat} (hi : i < N.n) {bad : Val α → Bool}
    (hn : node i = .ordered bad) :
    ((m.hist i).log ≠ [] → (m.hist i).eof 0 = true) ∧
    (∀ ys v xs, (m.hist i).eof 0 = true → (m.hist i).ins 0 = ys ++ v :: xs → (∀ x ∈ xs, bad x = false) → bad v = true →
      (m.hist i).log <+: xs.reverse.map .call ++ [.panic v]) := by
  refine hp.at hf hr hi (Q := fun h => (h.log ≠ [] → h.eof 0 = true) ∧
    (∀ ys v xs, h.eof 0 = true → h.ins 0 = ys ++ v :: xs → (∀ x ∈ xs, bad x = false) → bad v = true → h.log <+: xs.reverse.map .call ++ [.panic v])) ?_
  rw [hn]
  rintro C rfl s h hr
  have := Seq.keeps (orderedP_init bad) (orderedP_keeps bad) hr
  have pos : ∀ {ys : List (Val α)} {v : Val α} {xs : List (Val α)} {i : Nat} {last : List (Ev α K)}, h.ins 0 = ys ++ v :: xs → bad v = true →
      Handled bad h i last → ys.length < i := by
    intro ys v xs i last h1 h2 h3
    by_contra hle
    have hm : v ∈ (h.ins 0).drop i := by
      rw [h1, List.drop_append_of_le_length (by omega)]; simp
    have := h3.2 v hm
    rw [h2] at this; simp at this
  have part : ∀ {ys : List (Val α)} {v : Val α} {xs : List (Val α)} {i : Nat}, h.ins 0 = ys ++ v :: xs → bad v = true →
      Handled bad h i [] → h.log <+: xs.reverse.map .call ++ [.panic v] := by
    intro ys v xs i h1 h2 h3
    have hlt := pos h1 h2 h3
    obtain ⟨j, rfl⟩ : ∃ j, i = ys.length + 1 + j := ⟨i - (ys.length + 1), by omega⟩
    have e : (h.ins 0).drop (ys.length + 1 + j) = xs.drop j := by
      rw [h1, ← List.drop_drop]; simp
    refine List.IsPrefix.trans ?_ ⟨_, rfl⟩
    rw [h3.1, e, List.append_nil]
    refine List.IsPrefix.map _ ?_
    exact List.reverse_prefix.mpr (List.drop_suffix j xs)
  rcases s with _ | s
  · obtain ⟨h1, a, w, b, h2, h3, h4⟩ := this
    refine ⟨fun _ => h1, fun ys v xs _ h5 h6 h7 => ?_⟩
    have hd : (h.ins 0).drop (a.length + 1) = b := by rw [h2]; simp
    have hb : ∀ x ∈ b, bad x = false := fun x hx => h4.2 x (by rw [hd]; exact hx)
    have e : b.reverse ++ w :: a.reverse = xs.reverse ++ v :: ys.reverse := by
      have := congrArg List.reverse (h2.symm.trans h5)
      simpa using this
    obtain ⟨e1, rfl, _⟩ := split_unique (p := fun x => bad x = true) e (by simpa using hb) h3 (by simpa using h6) h7
    rw [h4.1, hd, e1]; exact List.prefix_refl _
  · cases s with
    | loop items =>
      obtain ⟨h1, _, h3⟩ := this
      exact ⟨fun h => absurd h3 h, fun _ _ _ h => by rw [h1] at h; simp at h⟩
    | back items j => exact ⟨fun _ => this.1, fun ys v xs _ h5 h6 h7 => part h5 h7 this.2.2.2.2⟩
    | ret => exact ⟨fun _ => this.1, fun ys v xs _ h5 h6 h7 => part h5 h7 this.2⟩
    | done => exact ⟨fun _ => this.1, fun ys v xs _ h5 h6 h7 => absurd (pos h5 h7 this.2) (by omega)⟩

/-- C101, Sort: its comparison is not called, and cannot panic, before the stream has ended. -/
theorem C101_sort (hp : IsPanicProgram N node) (hf : FewValues N) {m : NState N} (hr : NReach N m) {i : Nat} (hi : i < N.n) (hn : node i = .sort) :
    (m.hist i).log <+: [.panic .nil] ∧ ((m.hist i).log ≠ [] → (m.hist i).eof 0 = true) := by
  refine hp.at hf hr hi (Q := fun h => h.log <+: [.panic .nil] ∧ (h.log ≠ [] → h.eof 0 = true)) ?_
  rw [hn]
  rintro C rfl s h hr
  have := Seq.keeps sortP_init sortP_keeps hr
  cases s with
  | loop items => exact ⟨by rw [this.2.2]; exact List.nil_prefix, fun h => absurd this.2.2 h⟩
  | panicking => exact ⟨by rw [this.2]; exact List.nil_prefix, fun h => absurd this.2 h⟩
  | done => exact ⟨by rw [this.2]; exact List.prefix_refl _, fun _ => this.1⟩

end

/-! ## Behind a source -/

section
variable [DecidableEq K]

/-- The program: a source and an operation that ends the stream, with a function that can panic. -/
def termNodes (src : Source α) (t : PTerm α K) : Nat → PNode α K
  | 0 => .node (.source src)
  | _ => t.node

theorem pterm_shape (t : PTerm α K) : t.seq.comp.nin = 1 ∧ t.seq.comp.nout = 0 := by cases t <;> exact ⟨rfl, rfl⟩

theorem pterm_builds (t : PTerm α K) : t.node.Builds t.seq.comp := by cases t <;> rfl

theorem term_is (src : Source α) (t : PTerm α K) : IsPanicProgram (termProgram src t) (termNodes src t) := by
  refine ⟨chain_wf _ [] _ (source_shape src) (by simp) (pterm_shape t), ?_, ?_⟩
  · intro i hi
    have hi : i < 2 := hi
    rcases i with _ | _ | i
    · rfl
    · exact pterm_builds t
    · omega
  · intro i hi nd e
    rcases i with _ | i
    · simp [termNodes] at e
      subst e; trivial
    · cases t <;> simp [termNodes, PTerm.node] at e

theorem term_few (src : Source α) (t : PTerm α K) (hlen : src.items.length < 2 ^ 63) : FewValues (termProgram src t) := by
  refine chain_few _ [] _ (source_shape src) (by simp) (pterm_shape t) ?_ (by simp) ?_ hlen (source_few src) (by simp)
  · exact pnode_safe (pn := .node (.source src)) rfl (by rintro nd ⟨⟩; trivial)
  · exact pnode_safe (pterm_builds t) (by intro nd e; cases t <;> simp [PTerm.node] at e)

/-- If an operation receives nothing behind `v`, a generator with elements behind `v` does not end. -/
theorem left_behind {items xs ys : List (Val α)} {v : Val α} {t : PTerm α K} (hlen : items.length < 2 ^ 63) (hitems : items = xs ++ v :: ys) (hys : ys ≠ [])
    {m : NState (termProgram (.gen items) t)} (hr : NReach _ m) (hstop : ∀ zs, (m.hist 1).ins 0 = xs ++ v :: zs → zs = []) : m.closed 0 0 = false := by
  obtain ⟨_, hcl0⟩ := received_prefix (src := .gen items) (term_is (.gen items) t) (term_few (.gen items) t hlen) hr (by decide : 0 < 2) rfl rfl
  by_contra hc
  rw [Bool.not_eq_false] at hc
  have h5 := hcl0 hc
  have hb : m.buf 0 0 = [] := buf_nil (N := termProgram (.gen items) t) (fun _ => rfl) hr
  rw [hb, List.append_nil] at h5
  exact hys (hstop ys (by rw [h5]; exact hitems))

/-- The end of the stream has been seen: the whole stream has been received, the source has ended. -/
theorem all_received {src : Source α} {t : PTerm α K} (hlen : src.items.length < 2 ^ 63) {m : NState (termProgram src t)} (hr : NReach _ m)
    (he : (m.hist 1).eof 0 = true) : (m.hist 1).ins 0 = src.items ∧ m.closed 0 0 = true := by
  have hp := term_is src t
  have hf := term_few src t hlen
  obtain ⟨_, hcl0⟩ := received_prefix (src := src) hp hf hr (by decide : 0 < 2) rfl rfl
  have hq : 0 < ((termProgram src t).comp 0).nout := by
    rw [show (termProgram src t).comp 0 = src.comp from rfl, (source_shape src).2]; decide
  obtain ⟨hc0, hb0⟩ := (hp.inv hf hr).eofs 0 (by decide : 0 < 2) 0 hq he
  have := hcl0 hc0
  rw [hb0, List.append_nil] at this
  exact ⟨this, hc0⟩

/-- C101 fails for AnyMach and AllMach: let `v` be the first element for which the predicate panics, and no element before `v` decides the result. If the
source is a generator with elements after `v`, its goroutine never ends, whether or not the caller recovers the panic. -/
theorem C101_mach_refuted {items : List (Val α)} {bad : Val α → Bool} {want : Bool} {f : Val α → Bool} (hlen : items.length < 2 ^ 63) {xs ys : List (Val α)} {v : Val α}
    (hitems : items = xs ++ v :: ys) (hxs : ∀ x ∈ xs, bad x = false ∧ f x ≠ want) (hv : bad v = true) (hys : ys ≠ [])
    {m : NState (termProgram (K := K) (.gen items) (.mach bad want f))} (hr : NReach _ m) : m.closed 0 0 = false :=
  left_behind hlen hitems hys hr fun _ h =>
    (C101_mach (term_is (.gen items) (.mach bad want f)) (term_few (.gen items) (.mach bad want f) hlen) hr (i := 1) (by decide : 1 < 2) rfl h hxs hv).1

/-- C101 fails for GroupBy … Map and Group in the same way. -/
theorem C101_keyed_refuted {items : List (Val α)} {f : Val α → Option K} (hlen : items.length < 2 ^ 63) {xs ys : List (Val α)} {v : Val α}
    (hitems : items = xs ++ v :: ys) (hxs : ∀ x ∈ xs, f x ≠ none) (hv : f v = none) (hys : ys ≠ [])
    {m : NState (termProgram (.gen items) (.keyed f))} (hr : NReach _ m) : m.closed 0 0 = false :=
  left_behind hlen hitems hys hr fun zs h =>
    ((C101_keyed (term_is (.gen items) (.keyed f)) (term_few (.gen items) (.keyed f) hlen) hr (i := 1) (by decide : 1 < 2) rfl).1 xs v zs h hxs hv).1

/-- C101, ForeachOrdered: when its function is called, and so when it panics, the whole stream has been received and the source has ended: nothing is left
behind. -/
theorem C101_ordered_source {src : Source α} {bad : Val α → Bool} (hlen : src.items.length < 2 ^ 63) {m : NState (termProgram (K := K) src (.ordered bad))} (hr : NReach _ m)
    (hlog : (m.hist 1).log ≠ []) : (m.hist 1).ins 0 = src.items ∧ m.closed 0 0 = true :=
  all_received hlen hr ((C101_ordered (term_is src (.ordered bad)) (term_few src (.ordered bad) hlen) hr (i := 1) (by decide : 1 < 2) rfl).1 hlog)

/-- C101, Sort: the same. -/
theorem C101_sort_source {src : Source α} (hlen : src.items.length < 2 ^ 63) {m : NState (termProgram (K := K) src .sort)} (hr : NReach _ m)
    (hlog : (m.hist 1).log ≠ []) : (m.hist 1).ins 0 = src.items ∧ m.closed 0 0 = true :=
  all_received hlen hr ((C101_sort (term_is src .sort) (term_few src .sort hlen) hr (i := 1) (by decide : 1 < 2) rfl).2 hlog)

end

/-! ### When nothing moves any more -/

/-- A source and an operation that consumes it: when nothing moves any more, the operation has ended. -/
theorem pipe_end [DecidableEq K] {src : Source α} {P : Seq (Val α) (Ev α K)} (hP : P.nin = 1 ∧ P.nout = 0) {m : NState (pipe [src.comp, P.comp])} (hinv : NInv m)
    {Inv : P.σ → Hist (Val α) (Ev α K) → Prop} (hend : ∀ m', ¬ NStep m m') {s : P.σ} (hs : m.st 1 = s) (hk : P.Keeps Inv (m.hist 1) (P.next s)) :
    P.next s = .done := by
  have hok := hinv.ok
  cases hn : P.next s with
  | done => rfl
  | log e k => exact absurd (NStep.log m 1 e k hok (by decide : 1 < 2) (by rw [hs]; exact SeqStep.log hn)) (hend _)
  | tau k => exact absurd (NStep.tau m 1 k hok (by decide : 1 < 2) (by rw [hs]; exact SeqStep.tau hn)) (hend _)
  | send q v k => rw [hn, Seq.Keeps, hP.2] at hk; exact absurd hk.1 (by omega)
  | close q k => rw [hn, Seq.Keeps, hP.2] at hk; exact absurd hk.1 (by omega)
  | recv p k =>
    exfalso
    rw [hn, Seq.Keeps, hP.1] at hk
    obtain rfl : p = 0 := by omega
    cases hb : m.buf 0 0 with
    | cons v vs =>
      exact hend _ (NStep.recv m 1 0 v vs (k (some v)) hok (by decide : 1 < 2) (by rw [hs]; exact SeqStep.recv v hn) hb)
    | nil =>
      by_cases hc : m.closed 0 0 = true
      · exact hend _ (NStep.eof m 1 0 (k none) hok (by decide : 1 < 2) (by rw [hs]; exact SeqStep.eof hn) hb hc)
      · rw [Bool.not_eq_true] at hc
        have hcl := hinv.cl 0 (by decide : 0 < 2) 0 (by rw [show (pipe [src.comp, P.comp]).comp 0 = src.comp from rfl, (source_shape src).2]; decide)
        have h0 := hinv.reach 0 (by decide : 0 < 2)
        have main : ∀ (cap : SendSt α → Nat → Nat), src.comp = Seq.comp (A := Val α) (L := Ev α K) ⟨SendSt α, 0, 1, .loop src.items, cap, SendSt.next⟩ → False := by
          intro cap e
          have aux : ∀ (C : Comp (Val α) (Ev α K)) (st : C.σ), C = Seq.comp ⟨SendSt α, 0, 1, .loop src.items, cap, SendSt.next⟩ → CReach C st (m.hist 0) →
              (∃ v st', C.step st (.send 0 v) st') ∨ ∃ st', C.step st (.close 0) st' := by
            rintro C st rfl hr
            have hi := send_safe src.items cap hr
            cases st with
            | done => rw [hcl, hi.1] at hc; simp at hc
            | loop rest =>
              cases rest with
              | nil => exact .inr ⟨_, SeqStep.close rfl⟩
              | cons v vs => exact .inl ⟨v, _, SeqStep.send rfl⟩
          rcases aux src.comp (m.st 0) e h0 with ⟨v, st', hst⟩ | ⟨st', hst⟩
          · exact hend _ (NStep.meet m 0 0 v st' (k (some v)) hok (by decide : 0 < 2) hst hc hb (by decide : 0 ≠ 1) (by decide : 1 < 2)
              (by rw [show m.st ((pipe [src.comp, P.comp]).dst 0 0).1 = s from hs]; exact SeqStep.recv v hn))
          · exact hend _ (NStep.close m 0 0 st' hok (by decide : 0 < 2) hst hc)
        cases src with
        | of items => exact main _ rfl
        | gen items => exact main _ rfl
        | chan cap items => exact main _ rfl

section
variable [DecidableEq K]

/-- What has been received when nothing moves any more: the whole stream, if its end has been seen. -/
theorem received_end {src : Source α} {t : PTerm α K} (hlen : src.items.length < 2 ^ 63) {m : NState (termProgram src t)} (hr : NReach _ m) :
    (m.hist 1).ins 0 <+: src.items :=
  (received_prefix (src := src) (term_is src t) (term_few src t hlen) hr (by decide : 0 < 2) rfl rfl).1

/-- C101, AnyMach and AllMach: when nothing moves any more, the caller has got the panic, or the result decided by an element before the first for which
the predicate panics. -/
theorem C101_mach_end {src : Source α} {bad : Val α → Bool} {want : Bool} {f : Val α → Bool} (hlen : src.items.length < 2 ^ 63)
    {m : NState (termProgram (K := K) src (.mach bad want f))} (hr : NReach _ m) (hend : ∀ m', ¬ NStep m m') {xs ys : List (Val α)} {v : Val α}
    (hitems : src.items = xs ++ v :: ys) (hxs : ∀ x ∈ xs, bad x = false ∧ f x ≠ want) :
    (bad v = true → (m.hist 1).log = xs.map .call ++ [.panic v]) ∧
    (bad v = false → f v = want → (m.hist 1).log = xs.map .call ++ [.call v, .ret (.bool want)]) := by
  have hinv := (term_is src (.mach bad want f)).inv (term_few src (.mach bad want f) hlen) hr
  obtain ⟨zs, hpre⟩ := received_end hlen hr
  have hI : machPInv bad want f (m.st 1) (m.hist 1) := Seq.keeps (machP_init bad want f) (machP_keeps bad want f) (hinv.reach 1 (by decide : 1 < 2))
  have hd := pipe_end (P := machP bad want f) ⟨rfl, rfl⟩ hinv hend rfl (machP_keeps bad want f _ _ hI)
  have stop : ∀ {a b : List (Val α)} {w : Val α}, (m.hist 1).ins 0 = a ++ w :: b → Passes bad want f a → (bad w = true ∨ f w = want) →
      (bad v = true ∨ f v = want) → xs = a ∧ v = w := by
    intro a b w h1 h2 h3 h4
    have e : xs ++ v :: ys = a ++ w :: (b ++ zs) := by rw [← hitems, ← hpre, h1]; simp
    obtain ⟨e1, e2, _⟩ := split_unique (p := fun x => bad x = true ∨ f x = want) e
      (by intro x hx; have := hxs x hx; simp [this.1, this.2]) h4 (by intro x hx; have := h2 x hx; simp [this.1, this.2]) h3
    exact ⟨e1, e2⟩
  have whole : (m.hist 1).eof 0 = true → ¬ Passes bad want f ((m.hist 1).ins 0) ∨ (bad v = false ∧ f v ≠ want) := by
    intro he
    rw [(all_received hlen hr he).1]
    by_cases h : bad v = false ∧ f v ≠ want
    · exact .inr h
    · exact .inl fun hall => h (hall v (by rw [hitems]; simp))
  generalize (m.st 1 : Option (TermSt α K)) = s at hI hd
  rcases s with _ | s
  · obtain ⟨_, a, w, h1, h2, h3, h4⟩ := hI
    refine ⟨fun hv => ?_, fun hv hfv => ?_⟩
    · obtain ⟨rfl, rfl⟩ := stop h1 h3 (.inl h4) (.inl hv)
      exact h2
    · obtain ⟨rfl, rfl⟩ := stop h1 h3 (.inl h4) (.inr hfv)
      rw [hv] at h4; simp at h4
  · cases s with
    | loop => simp [machP, panicky, machS, panickyNext, machNext] at hd
    | call w => simp only [machP, panicky, machS, panickyNext, machNext] at hd; split at hd <;> simp at hd
    | drain => simp [machP, panicky, machS, panickyNext, machNext] at hd
    | ret r => cases r <;> simp [machP, panicky, machS, panickyNext, machNext] at hd
    | done =>
      obtain ⟨he, h | ⟨a, w, b, h1, h2, h3, h4, h5⟩⟩ := hI
      · rcases whole he with h' | ⟨h', h''⟩
        · exact absurd h.2 h'
        · exact ⟨fun hv => by rw [h'] at hv; simp at hv, fun _ hv => absurd hv h''⟩
      · refine ⟨fun hv => ?_, fun hv hfv => ?_⟩
        · obtain ⟨rfl, rfl⟩ := stop h1 h3 (.inr h5) (.inl hv)
          rw [hv] at h4; simp at h4
        · obtain ⟨rfl, rfl⟩ := stop h1 h3 (.inr h5) (.inr hfv)
          rw [h2]; simp

/-- C101, GroupBy … Map and Group: when nothing moves any more, the caller has got the panic. -/
theorem C101_keyed_end {src : Source α} {f : Val α → Option K} (hlen : src.items.length < 2 ^ 63)
    {m : NState (termProgram src (.keyed f))} (hr : NReach _ m) (hend : ∀ m', ¬ NStep m m') {xs ys : List (Val α)} {v : Val α}
    (hitems : src.items = xs ++ v :: ys) (hxs : ∀ x ∈ xs, f x ≠ none) (hv : f v = none) : (m.hist 1).log = [.panic v] := by
  obtain ⟨zs, hpre⟩ := received_end hlen hr
  have hinv := (term_is src (.keyed f)).inv (term_few src (.keyed f) hlen) hr
  have hI : keyedPInv f (m.st 1) (m.hist 1) := Seq.keeps (keyedP_init f) (keyedP_keeps f) (hinv.reach 1 (by decide : 1 < 2))
  have hd := pipe_end (P := keyedP f) ⟨rfl, rfl⟩ hinv hend rfl (keyedP_keeps f _ _ hI)
  have whole : (m.hist 1).eof 0 = true → ¬ ∀ x ∈ (m.hist 1).ins 0, f x ≠ none := by
    intro he hall
    rw [(all_received hlen hr he).1] at hall
    exact hall v (by rw [hitems]; simp) hv
  generalize (m.st 1 : KeyedSt α K) = s at hI hd
  cases s with
  | loop g => simp [keyedP, keyedNext] at hd
  | panicking v => simp [keyedP, keyedNext] at hd
  | ret g => simp [keyedP, keyedNext] at hd
  | done =>
    rcases hI with ⟨h1, _, h2⟩ | ⟨_, a, w, h1, h2, h3, h4⟩
    · exact absurd h2 (whole h1)
    · have e : xs ++ v :: ys = a ++ w :: zs := by rw [← hitems, ← hpre, h1]; simp
      obtain ⟨_, rfl, _⟩ := split_unique (p := fun x => f x = none) e hxs hv h4 h3
      exact h2

/-- C101, ForeachOrdered: when nothing moves any more, the function has been called for the elements behind the last for which it panics, from the last
on, and the caller has got the panic. -/
theorem C101_ordered_end {src : Source α} {bad : Val α → Bool} (hlen : src.items.length < 2 ^ 63)
    {m : NState (termProgram (K := K) src (.ordered bad))} (hr : NReach _ m) (hend : ∀ m', ¬ NStep m m') {xs ys : List (Val α)} {v : Val α}
    (hitems : src.items = ys ++ v :: xs) (hxs : ∀ x ∈ xs, bad x = false) (hv : bad v = true) :
    (m.hist 1).log = xs.reverse.map .call ++ [.panic v] ∧ m.closed 0 0 = true := by
  have hinv := (term_is src (.ordered bad)).inv (term_few src (.ordered bad) hlen) hr
  have hI : orderedPInv bad (m.st 1) (m.hist 1) := Seq.keeps (orderedP_init bad) (orderedP_keeps bad) (hinv.reach 1 (by decide : 1 < 2))
  have hd := pipe_end (P := orderedP bad) ⟨rfl, rfl⟩ hinv hend rfl (orderedP_keeps bad _ _ hI)
  generalize (m.st 1 : Option (OrderedSt α)) = s at hI hd
  rcases s with _ | s
  · obtain ⟨he, a, w, b, h2, h3, h4⟩ := hI
    obtain ⟨hall, hcl⟩ := all_received hlen hr he
    refine ⟨?_, hcl⟩
    have hd : ((m.hist 1).ins 0).drop (a.length + 1) = b := by rw [h2]; simp
    have hb : ∀ x ∈ b, bad x = false := fun x hx => h4.2 x (by rw [hd]; exact hx)
    have e : b.reverse ++ w :: a.reverse = xs.reverse ++ v :: ys.reverse := by
      have := congrArg List.reverse (h2.symm.trans (hall.trans hitems))
      simpa using this
    obtain ⟨e1, rfl, _⟩ := split_unique (p := fun x => bad x = true) e (by simpa using hb) h3 (by simpa using hxs) hv
    rw [h4.1, hd, e1]
  · cases s with
    | loop items => simp [orderedP, panicky, orderedS, panickyNext, orderedNext] at hd
    | back items j =>
      by_cases e : j ≥ 0
      · simp only [orderedP, panicky, orderedS, panickyNext, orderedNext, e, if_true] at hd; split at hd <;> simp at hd
      · simp [orderedP, panicky, orderedS, panickyNext, orderedNext, e] at hd
    | ret => simp [orderedP, panicky, orderedS, panickyNext, orderedNext] at hd
    | done =>
      obtain ⟨he, _, h3⟩ := hI
      have := h3 v (by rw [(all_received hlen hr he).1, hitems]; simp)
      rw [hv] at this; simp at this

/-- C101, Sort: when nothing moves any more, the caller has got the panic and the source has ended. -/
theorem C101_sort_end {src : Source α} (hlen : src.items.length < 2 ^ 63)
    {m : NState (termProgram (K := K) src .sort)} (hr : NReach _ m) (hend : ∀ m', ¬ NStep m m') :
    (m.hist 1).log = [.panic .nil] ∧ m.closed 0 0 = true := by
  have hinv := (term_is (K := K) src .sort).inv (term_few src .sort hlen) hr
  have hI : sortPInv (m.st 1) (m.hist 1) := Seq.keeps sortP_init sortP_keeps (hinv.reach 1 (by decide : 1 < 2))
  have hd := pipe_end (P := sortP) ⟨rfl, rfl⟩ hinv hend rfl (sortP_keeps _ _ hI)
  generalize (m.st 1 : SortPSt α) = s at hI hd
  cases s with
  | loop items => simp [sortP, sortPNext] at hd
  | panicking => simp [sortP, sortPNext] at hd
  | done => exact ⟨hI.2, (all_received hlen hr hI.1).2⟩

end

/-! ### Runs in which this happens -/

theorem ended {N : Net (Val α) (Ev α K)} {m : NState N} (h : ∀ i < N.n, ∀ l s', ¬ (N.comp i).step (m.st i) l s') : ∀ m', ¬ NStep m m' := by
  intro m' hs
  cases hs with
  | log i e s' _ hi hst => exact h i hi _ _ hst
  | tau i s' _ hi hst => exact h i hi _ _ hst
  | send i q v s' _ hi hst => exact h i hi _ _ hst
  | meet i q v s' s'' _ hi hst => exact h i hi _ _ hst
  | sendPanic i q v s' _ hi hst => exact h i hi _ _ hst
  | close i q s' _ hi hst => exact h i hi _ _ hst
  | closePanic i q s' _ hi hst => exact h i hi _ _ hst
  | recv i p v vs s' _ hi hst => exact h i hi _ _ hst
  | eof i p s' _ hi hst => exact h i hi _ _ hst

theorem no_step {σ : Type} {next : σ → Cmd (Val α) (Ev α K) σ} {s : σ} (h : next s = .done) (l : Lbl (Val α) (Ev α K)) (s' : σ) : ¬ SeqStep next s l s' := by
  intro hs
  cases hs <;> simp_all

theorem demo_mach : ∃ m, NReach (termProgram (K := Nat) demoGen (.mach demoBad true fun v => num v = 3)) m ∧
    (m.hist 1).log = [.call (.atom 1), .panic (.atom 2)] ∧ (m.hist 1).ins 0 = [.atom 1] ++ .atom 2 :: [] := by
  have r0 : NReach (termProgram (K := Nat) demoGen (.mach demoBad true fun v => num v = 3)) _ := .init
  have r1 := NReach.step r0 (.meet _ 0 0 (.atom 1) (SendSt.loop [.atom 2, .atom 3]) (some (TermSt.call (.atom 1))) rfl (by decide : 0 < 2) (.send rfl) rfl rfl
    (by decide : 0 ≠ 1) (by decide : 1 < 2) (by exact recv_step (machP demoBad true fun v => num v = 3) (some TermSt.loop) (.atom 1) rfl rfl))
  have r2 := NReach.step r1 (.log _ 1 (.call (.atom 1)) (some TermSt.loop) rfl (by decide : 1 < 2) (.log rfl))
  have r3 := NReach.step r2 (.meet _ 0 0 (.atom 2) (SendSt.loop [.atom 3]) (some (TermSt.call (.atom 2))) rfl (by decide : 0 < 2) (.send rfl) rfl rfl
    (by decide : 0 ≠ 1) (by decide : 1 < 2) (by exact recv_step (machP demoBad true fun v => num v = 3) (some TermSt.loop) (.atom 2) rfl rfl))
  have r4 := NReach.step r3 (.log _ 1 (.panic (.atom 2)) none rfl (by decide : 1 < 2) (.log rfl))
  exact ⟨_, r4, rfl, rfl⟩

example := demo_mach.imp fun _ h => C101_mach (term_is _ _) (term_few _ _ (by decide)) h.1 (i := 1) (by decide : 1 < 2) rfl h.2.2 (by decide) rfl

example := demo_mach.imp fun _ h => C101_mach_refuted (by decide) (xs := [.atom 1]) (v := .atom 2) (ys := [.atom 3]) rfl (by decide) rfl (by simp) h.1

/-- AnyMach finds 1; the panic of the predicate for 2 never happens. -/
theorem demo_decided : ∃ m, NReach (termProgram (K := Nat) demoGen (.mach demoBad true fun v => num v = 1)) m ∧
    (m.hist 1).log = [.call (.atom 1), .ret (.bool true)] ∧ (m.hist 1).ins 0 = [] ++ .atom 1 :: [.atom 2] := by
  have r0 : NReach (termProgram (K := Nat) demoGen (.mach demoBad true fun v => num v = 1)) _ := .init
  have r1 := NReach.step r0 (.meet _ 0 0 (.atom 1) (SendSt.loop [.atom 2, .atom 3]) (some (TermSt.call (.atom 1))) rfl (by decide : 0 < 2) (.send rfl) rfl rfl
    (by decide : 0 ≠ 1) (by decide : 1 < 2) (by exact recv_step (machP demoBad true fun v => num v = 1) (some TermSt.loop) (.atom 1) rfl rfl))
  have r2 := NReach.step r1 (.log _ 1 (.call (.atom 1)) (some (TermSt.ret (.bool true))) rfl (by decide : 1 < 2) (.log rfl))
  have r3 := NReach.step r2 (.log _ 1 (.ret (.bool true)) (some TermSt.drain) rfl (by decide : 1 < 2) (.log rfl))
  have r4 := NReach.step r3 (.meet _ 0 0 (.atom 2) (SendSt.loop [.atom 3]) (some TermSt.drain) rfl (by decide : 0 < 2) (.send rfl) rfl rfl
    (by decide : 0 ≠ 1) (by decide : 1 < 2) (by exact recv_step (machP demoBad true fun v => num v = 1) (some TermSt.drain) (.atom 2) rfl rfl))
  exact ⟨_, r4, rfl, rfl⟩

example := demo_decided.imp fun _ h => C101_mach_decided (term_is _ _) (term_few _ _ (by decide)) h.1 (i := 1) (by decide : 1 < 2) rfl h.2.2 (by simp) (by decide)

theorem demo_keyed : ∃ m, NReach (termProgram demoGen (.keyed demoKey)) m ∧ (m.hist 1).log = [.panic (.atom 2)] ∧ (m.hist 1).ins 0 = [.atom 1, .atom 2] := by
  have r0 : NReach (termProgram demoGen (.keyed demoKey)) _ := .init
  have r1 := NReach.step r0 (.meet _ 0 0 (.atom 1) (SendSt.loop [.atom 2, .atom 3]) (KeyedSt.loop [(1, [.atom 1])]) rfl (by decide : 0 < 2) (.send rfl) rfl rfl
    (by decide : 0 ≠ 1) (by decide : 1 < 2) (by exact recv_step (keyedP demoKey) (KeyedSt.loop []) (.atom 1) rfl rfl))
  have r2 := NReach.step r1 (.meet _ 0 0 (.atom 2) (SendSt.loop [.atom 3]) (KeyedSt.panicking (.atom 2)) rfl (by decide : 0 < 2) (.send rfl) rfl rfl
    (by decide : 0 ≠ 1) (by decide : 1 < 2) (by exact recv_step (keyedP demoKey) (KeyedSt.loop [(1, [.atom 1])]) (.atom 2) rfl rfl))
  have r3 := NReach.step r2 (.log _ 1 (.panic (.atom 2)) KeyedSt.done rfl (by decide : 1 < 2) (.log rfl))
  exact ⟨_, r3, rfl, rfl⟩

example := demo_keyed.imp fun _ h => C101_keyed (term_is _ _) (term_few _ _ (by decide)) h.1 (i := 1) (by decide : 1 < 2) rfl

example := demo_keyed.imp fun _ h => C101_keyed_refuted (by decide) (xs := [.atom 1]) (v := .atom 2) (ys := [.atom 3]) rfl (by decide) rfl (by simp) h.1

theorem demo_ordered : ∃ m, NReach (termProgram (K := Nat) (.gen [.atom 2, .atom 1]) (.ordered demoBad)) m ∧
    (m.hist 1).log = [.call (.atom 1), .panic (.atom 2)] ∧ (m.hist 1).ins 0 = [] ++ .atom 2 :: [.atom 1] ∧ ∀ m', ¬ NStep m m' := by
  have r0 : NReach (termProgram (K := Nat) (.gen [.atom 2, .atom 1]) (.ordered demoBad)) _ := .init
  have r1 := NReach.step r0 (.meet _ 0 0 (.atom 2) (SendSt.loop [.atom 1]) (some (OrderedSt.loop [.atom 2])) rfl (by decide : 0 < 2) (.send rfl) rfl rfl
    (by decide : 0 ≠ 1) (by decide : 1 < 2) (by exact recv_step (orderedP demoBad) (some (OrderedSt.loop [])) (.atom 2) rfl rfl))
  have r2 := NReach.step r1 (.meet _ 0 0 (.atom 1) (SendSt.loop []) (some (OrderedSt.loop [.atom 2, .atom 1])) rfl (by decide : 0 < 2) (.send rfl) rfl rfl
    (by decide : 0 ≠ 1) (by decide : 1 < 2) (by exact recv_step (orderedP demoBad) (some (OrderedSt.loop [.atom 2])) (.atom 1) rfl rfl))
  have r3 := NReach.step r2 (.close _ 0 0 SendSt.done rfl (by decide : 0 < 2) (.close rfl) rfl)
  have r4 := NReach.step r3 (.eof _ 1 0 (some (OrderedSt.back [.atom 2, .atom 1] 1)) rfl (by decide : 1 < 2)
    (by exact eof_step (orderedP demoBad) (some (OrderedSt.loop [.atom 2, .atom 1])) rfl rfl) rfl rfl)
  have r5 := NReach.step r4 (.log _ 1 (.call (.atom 1)) (some (OrderedSt.back [.atom 2, .atom 1] 0)) rfl (by decide : 1 < 2) (.log rfl))
  have r6 := NReach.step r5 (.log _ 1 (.panic (.atom 2)) none rfl (by decide : 1 < 2) (.log rfl))
  refine ⟨_, r6, rfl, rfl, ended ?_⟩
  intro i hi l s'
  have hi : i < 2 := hi
  rcases i with _ | _ | i
  · exact no_step (s := SendSt.done) rfl l s'
  · exact no_step (next := (orderedP (K := Nat) demoBad).next) (s := none) rfl l s'
  · omega

example := demo_ordered.imp fun _ h => C101_ordered_source (by decide) h.1 (by rw [h.2.1]; simp)

example := demo_ordered.imp fun _ h => (C101_ordered (term_is _ _) (term_few _ _ (by decide)) h.1 (i := 1) (by decide : 1 < 2) rfl).2 _ _ _
  ((C101_ordered (term_is _ _) (term_few _ _ (by decide)) h.1 (i := 1) (by decide : 1 < 2) rfl).1 (by rw [h.2.1]; simp)) h.2.2.1 (by decide) rfl

theorem demo_sort : ∃ m, NReach (termProgram (α := Nat) (K := Nat) (.gen [.atom 2]) .sort) m ∧ (m.hist 1).log = [.panic .nil] ∧ ∀ m', ¬ NStep m m' := by
  have r0 : NReach (termProgram (α := Nat) (K := Nat) (.gen [.atom 2]) .sort) _ := .init
  have r1 := NReach.step r0 (.meet _ 0 0 (.atom 2) (SendSt.loop []) (SortPSt.loop [.atom 2]) rfl (by decide : 0 < 2) (.send rfl) rfl rfl
    (by decide : 0 ≠ 1) (by decide : 1 < 2) (by exact recv_step sortP (SortPSt.loop []) (.atom 2) rfl rfl))
  have r3 := NReach.step r1 (.close _ 0 0 SendSt.done rfl (by decide : 0 < 2) (.close rfl) rfl)
  have r4 := NReach.step r3 (.eof _ 1 0 SortPSt.panicking rfl (by decide : 1 < 2)
    (by exact eof_step sortP (SortPSt.loop [.atom 2]) rfl rfl) rfl rfl)
  have r5 := NReach.step r4 (.log _ 1 (.panic .nil) SortPSt.done rfl (by decide : 1 < 2) (.log rfl))
  refine ⟨_, r5, rfl, ended ?_⟩
  intro i hi l s'
  have hi : i < 2 := hi
  rcases i with _ | _ | i
  · exact no_step (s := SendSt.done) rfl l s'
  · exact no_step (s := SortPSt.done) rfl l s'
  · omega

example := demo_sort.imp fun _ h => C101_sort_source (by decide) h.1 (by rw [h.2.1]; simp)

example := demo_sort.imp fun _ h => C101_sort (term_is _ _) (term_few _ _ (by decide)) h.1 (i := 1) (by decide : 1 < 2) rfl

/-! ### Runs that have ended -/

/-- For the concrete cases beside the theorems. -/
def demoGen2 : Source Nat := .gen [.atom 1, .atom 2]

theorem demo_mach_end : ∃ m, NReach (termProgram (K := Nat) demoGen2 (.mach demoBad true fun v => num v = 3)) m ∧ ∀ m', ¬ NStep m m' := by
  have r0 : NReach (termProgram (K := Nat) demoGen2 (.mach demoBad true fun v => num v = 3)) _ := .init
  have r1 := NReach.step r0 (.meet _ 0 0 (.atom 1) (SendSt.loop [.atom 2]) (some (TermSt.call (.atom 1))) rfl (by decide : 0 < 2) (.send rfl) rfl rfl
    (by decide : 0 ≠ 1) (by decide : 1 < 2) (by exact recv_step (machP demoBad true fun v => num v = 3) (some TermSt.loop) (.atom 1) rfl rfl))
  have r2 := NReach.step r1 (.log _ 1 (.call (.atom 1)) (some TermSt.loop) rfl (by decide : 1 < 2) (.log rfl))
  have r3 := NReach.step r2 (.meet _ 0 0 (.atom 2) (SendSt.loop []) (some (TermSt.call (.atom 2))) rfl (by decide : 0 < 2) (.send rfl) rfl rfl
    (by decide : 0 ≠ 1) (by decide : 1 < 2) (by exact recv_step (machP demoBad true fun v => num v = 3) (some TermSt.loop) (.atom 2) rfl rfl))
  have r4 := NReach.step r3 (.log _ 1 (.panic (.atom 2)) none rfl (by decide : 1 < 2) (.log rfl))
  have r5 := NReach.step r4 (.close _ 0 0 SendSt.done rfl (by decide : 0 < 2) (.close rfl) rfl)
  refine ⟨_, r5, ended ?_⟩
  intro i hi l s'
  have hi : i < 2 := hi
  rcases i with _ | _ | i
  · exact no_step (s := SendSt.done) rfl l s'
  · exact no_step (next := (machP (K := Nat) demoBad true fun v => num v = 3).next) (s := none) rfl l s'
  · omega

example := demo_mach_end.imp fun _ h => C101_mach_end (by decide) h.1 h.2 (xs := [.atom 1]) (v := .atom 2) (ys := []) rfl (by decide)

theorem demo_keyed_end : ∃ m, NReach (termProgram demoGen2 (.keyed demoKey)) m ∧ ∀ m', ¬ NStep m m' := by
  have r0 : NReach (termProgram demoGen2 (.keyed demoKey)) _ := .init
  have r1 := NReach.step r0 (.meet _ 0 0 (.atom 1) (SendSt.loop [.atom 2]) (KeyedSt.loop [(1, [.atom 1])]) rfl (by decide : 0 < 2) (.send rfl) rfl rfl
    (by decide : 0 ≠ 1) (by decide : 1 < 2) (by exact recv_step (keyedP demoKey) (KeyedSt.loop []) (.atom 1) rfl rfl))
  have r2 := NReach.step r1 (.meet _ 0 0 (.atom 2) (SendSt.loop []) (KeyedSt.panicking (.atom 2)) rfl (by decide : 0 < 2) (.send rfl) rfl rfl
    (by decide : 0 ≠ 1) (by decide : 1 < 2) (by exact recv_step (keyedP demoKey) (KeyedSt.loop [(1, [.atom 1])]) (.atom 2) rfl rfl))
  have r3 := NReach.step r2 (.log _ 1 (.panic (.atom 2)) KeyedSt.done rfl (by decide : 1 < 2) (.log rfl))
  have r4 := NReach.step r3 (.close _ 0 0 SendSt.done rfl (by decide : 0 < 2) (.close rfl) rfl)
  refine ⟨_, r4, ended ?_⟩
  intro i hi l s'
  have hi : i < 2 := hi
  rcases i with _ | _ | i
  · exact no_step (s := SendSt.done) rfl l s'
  · exact no_step (s := KeyedSt.done) rfl l s'
  · omega

example := demo_keyed_end.imp fun _ h => C101_keyed_end (by decide) h.1 h.2 (xs := [.atom 1]) (v := .atom 2) (ys := []) rfl (by decide) rfl

example := demo_ordered.imp fun _ h => C101_ordered_end (by decide) h.1 h.2.2.2 (ys := []) (v := .atom 2) (xs := [.atom 1]) rfl (by decide) rfl

example := demo_sort.imp fun _ h => C101_sort_end (by decide) h.1 h.2.2

/-! ## C106: Map of a collector, called again -/

section
variable [DecidableEq K]

/-- The results of `n` calls of `Map`, one after the other, when `items` is what the channel delivers; `none`: the call panics. -/
def GroupC.maps (f : Val α → Option K) : Nat → GroupC α K → List (Val α) → List (Option (GMap K (List (Val α))))
  | 0, _, _ => []
  | n + 1, g, items => (g.mapP f items).2.1 :: GroupC.maps f n (g.mapP f items).1 (g.mapP f items).2.2

theorem groupLoopP_fine (f : Val α → Option K) : ∀ (l xs : List (Val α)) (g : GMap K (List (Val α))), GroupsP f xs g → (∀ x ∈ l, f x ≠ none) →
    ∃ g', groupLoopP f g l = (g', false, []) ∧ GroupsP f (xs ++ l) g' := by
  intro l
  induction l with
  | nil => intro xs g h _; exact ⟨g, rfl, by simpa using h⟩
  | cons v vs ih =>
    intro xs g h hl
    obtain ⟨k, hk⟩ := Option.ne_none_iff_exists'.mp (hl v (by simp))
    obtain ⟨g', h1, h2⟩ := ih _ _ (groupsP_snoc f h v hk) (fun x hx => hl x (by simp [hx]))
    exact ⟨g', by simp only [groupLoopP, hk, h1], by simpa using h2⟩

theorem groupLoopP_panics (f : Val α → Option K) {v : Val α} (hv : f v = none) (ys : List (Val α)) : ∀ (l xs : List (Val α)) (g : GMap K (List (Val α))), GroupsP f xs g →
    (∀ x ∈ l, f x ≠ none) → ∃ g', groupLoopP f g (l ++ v :: ys) = (g', true, ys) ∧ GroupsP f (xs ++ l) g' := by
  intro l
  induction l with
  | nil => intro xs g h _; exact ⟨g, by simp [groupLoopP, hv], by simpa using h⟩
  | cons w vs ih =>
    intro xs g h hl
    obtain ⟨k, hk⟩ := Option.ne_none_iff_exists'.mp (hl w (by simp))
    obtain ⟨g', h1, h2⟩ := ih _ _ (groupsP_snoc f h w hk) (fun x hx => hl x (by simp [hx]))
    exact ⟨g', by simp only [List.cons_append, groupLoopP, hk, h1], by simpa using h2⟩

theorem maps_memo (f : Val α → Option K) (g : GMap K (List (Val α))) : ∀ (n : Nat) (items : List (Val α)), GroupC.maps f n ⟨some g⟩ items = List.replicate n (some g) := by
  intro n
  induction n with
  | zero => intro items; rfl
  | succ n ih => intro items; simp only [GroupC.maps, GroupC.mapP, ih]; rfl

/-- C106, as far as it holds: if the key function does not panic, every call of `Map` returns the grouping of the whole stream. -/
theorem C106_map_partial (f : Val α → Option K) (items : List (Val α)) (hf : ∀ x ∈ items, f x ≠ none) (n : Nat) :
    ∃ g, IsGroupingP f items g ∧ GroupC.maps f n ⟨none⟩ items = List.replicate n (some g) := by
  obtain ⟨g, h1, h2⟩ := groupLoopP_fine f items [] [] (groupsP_nil f) hf
  refine ⟨g, groupsP_is (by simpa using h2), ?_⟩
  cases n with
  | zero => rfl
  | succ n =>
    simp only [GroupC.maps, GroupC.mapP, h1, maps_memo, List.replicate_succ]

/-- C106 fails: let `v` be the first element for which the key function panics. The first call of `Map` panics, and every later call returns, without
a panic, a map with the elements before `v` only: neither `v` nor any element behind it is in any group. -/
theorem C106_map_refuted (f : Val α → Option K) {items xs ys : List (Val α)} {v : Val α} (hitems : items = xs ++ v :: ys) (hxs : ∀ x ∈ xs, f x ≠ none) (hv : f v = none)
    (n : Nat) : ∃ g, IsGroupingP f xs g ∧ GroupC.maps f (n + 1) ⟨none⟩ items = none :: List.replicate n (some g) := by
  obtain ⟨g, h1, h2⟩ := groupLoopP_panics f hv ys xs [] [] (groupsP_nil f) hxs
  refine ⟨g, groupsP_is (by simpa using h2), ?_⟩
  subst hitems
  simp only [GroupC.maps, GroupC.mapP, h1, maps_memo]

/-- C106: without a panic, `Map` with a key function that might panic is the `Map` of C53. -/
theorem C106_agrees (f : Val α → K) (g : GroupC α K) (items : List (Val α)) :
    g.mapP (fun v => some (f v)) items = ((g.map f items).1, some (g.map f items).2.1, (g.map f items).2.2) := by
  have key : ∀ (l : List (Val α)) (m : GMap K (List (Val α))), groupLoopP (fun v => some (f v)) m l = (groupLoop f m l, false, []) := by
    intro l
    induction l with
    | nil => intro m; rfl
    | cons v vs ih => intro m; simp only [groupLoopP, groupLoop, ih]
  obtain ⟨groups⟩ := g
  cases groups with
  | none => simp only [GroupC.mapP, GroupC.map, key]
  | some m => rfl

end

example := C106_map_partial demoKey [.atom 1, .atom 3, .atom 1] (by decide) 2

example := C106_map_refuted demoKey (items := [.atom 1, .atom 2, .atom 3]) (xs := [.atom 1]) rfl (by decide) rfl 1

example : GroupC.maps demoKey 2 ⟨none⟩ [.atom 1, .atom 2, .atom 3] = [none, some [(1, [.atom 1])]] := rfl

end Verif.XStream

import Verif.XSync.MapWorlds
/-!
# `Clear` concurrent with other operations: the worlds

Every `Clear` ends a *world* and begins a new one, in which the map has no entries. A call that got an entry before a `Clear` goes on in the
old world, which nobody else will ever see; it takes effect before that `Clear`. In every world the calls behave as in the map without `Clear`.
This file defines the worlds and the relation between them and the program.
-/
namespace Verif.Conc

theorem GReach.done_ret {σ Op Res : Type} {S : Spec σ Op Res} {g : Ghost σ Op Res} (h : GReach S g) : ∀ i, g.st i = .done → ∃ r, Ev.ret i r ∈ g.hist := by
  induction h with
  | init => simp [Ghost.init]
  | step _ hs ih =>
    intro i hi
    cases hs with
    | invoke j op _ =>
      simp only [Ghost.invoke] at hi ⊢
      by_cases hj : i = j
      · subst hj; simp at hi
      · rw [upd_ne _ _ hj] at hi; obtain ⟨r, hr⟩ := ih i hi; exact ⟨r, by simp [hr]⟩
    | commit j op r s' _ _ =>
      simp only [Ghost.commit] at hi ⊢
      by_cases hj : i = j
      · subst hj; simp at hi
      · rw [upd_ne _ _ hj] at hi; exact ih i hi
    | retC j op r _ =>
      simp only [Ghost.retC] at hi ⊢
      by_cases hj : i = j
      · subst hj; exact ⟨r, by simp⟩
      · rw [upd_ne _ _ hj] at hi; obtain ⟨r', hr⟩ := ih i hi; exact ⟨r', by simp [hr]⟩
    | retR j k op r _ _ _ _ =>
      simp only [Ghost.retR] at hi ⊢
      by_cases hj : i = j
      · subst hj; exact ⟨r, by simp⟩
      · rw [upd_ne _ _ hj] at hi; obtain ⟨r', hr⟩ := ih i hi; exact ⟨r', by simp [hr]⟩

/-- `A` is the history up to some instant. -/
def Cut {Op Res : Type} (A H : List (Ev Op Res)) : Prop := ∃ B, H = A ++ B ∧ ∀ i, HasInv A i → ¬ HasInv B i

variable {Op Res : Type} {A H : List (Ev Op Res)}

theorem Cut.ret (h : Cut A H) {i : Nat} (hr : HasRet A i) : HasRet H i := by
  obtain ⟨B, rfl, _⟩ := h
  obtain ⟨r, hr⟩ := hr
  exact ⟨r, List.mem_append_left _ hr⟩

/-- What returned before a call that was made before the instant returned before the instant. -/
theorem Cut.before (h : Cut A H) {a b : Nat} (hb : HasInv A b) (hab : Before H a b) : HasRet A a := by
  obtain ⟨B, rfl, h2⟩ := h
  exact (before_mem (before_left hab (h2 b hb))).1

theorem Cut.append (h : Cut A H) {e : Ev Op Res} (he : ∀ i op, e = .inv i op → ¬ HasInv H i) : Cut A (H ++ [e]) := by
  obtain ⟨B, rfl, h2⟩ := h
  refine ⟨B ++ [e], by simp, ?_⟩
  rintro i hi ⟨op, ho⟩
  rw [List.mem_append, List.mem_singleton] at ho
  rcases ho with ho | ho
  · exact h2 i hi ⟨op, ho⟩
  · obtain ⟨o, hi⟩ := hi
    exact he i op ho.symm ⟨o, List.mem_append_left _ hi⟩

theorem Cut.self (H : List (Ev Op Res)) : Cut H H := ⟨[], by simp, by rintro i _ ⟨op, h⟩; simp at h⟩

end Verif.Conc

namespace Verif.XSync.MapWords
open Verif.Conc Verif.Go Verif.XSync.MapConc
open Verif.XSync.MapClear (Typ)

variable {K V : Type} [DecidableEq K] [DecidableEq V]

/-! ## One world -/

/-- A map without `Clear`, its calls, and how they took effect. The entries of the world begin at `lo`. -/
structure World (K V : Type) where
  g : G K V
  v : Vw K V
  gh : Gh K V
  lo : Nat

/-- The states of the world that programs reach. -/
structure World.Ok (w : World K V) : Prop where
  reach : GReach mapSpec w.gh
  inv : I w.g w.v w.gh
  idle : ∀ i, w.v i = none → w.gh.st i = .idle
  live : ∀ i op s, w.v i = some (op, .inl s) → w.gh.st i ≠ .done
  lo : w.lo ≤ w.g.next
  keys : ∀ e, w.g.key e ≠ none → w.lo ≤ e
  calm : ∀ i op, w.v i ≠ some (op, .inr .panic)

omit [DecidableEq V] in
theorem not_panic {g : G K V} {v : Vw K V} {gh : Gh K V} {i : Nat} {op : Op K V} (hg : GReach mapSpec gh) (hI : I g v gh) (hd : gh.st i ≠ .done) :
    v i ≠ some (op, .inr .panic) := by
  intro hv
  have no : ∀ s s' : M K V, ¬ Does s op .panic s' := by intro s s' h; cases h
  rcases (hI.fin i op _ hv).1 with h | ⟨_, _, _, h⟩ | h
  · obtain ⟨k, hk⟩ := List.mem_iff_getElem?.mp ((ginv_reach hg).committed _ _ _ h)
    exact no _ _ ((ginv_reach hg).legal _ _ _ _ hk)
  · exact no _ _ h
  · exact hd h

omit [DecidableEq V] in
theorem World.Ok.ents {w : World K V} (h : w.Ok) {i : Nat} {op : Op K V} {s : Pt K V} (hv : w.v i = some (op, .inl s)) :
    ∀ e ∈ ents s, w.lo ≤ e ∧ e < w.g.next := by
  intro e he
  have hk := ents_key h.inv hv e he
  refine ⟨h.keys e hk, ?_⟩
  apply Classical.byContradiction
  intro hn
  exact hk (h.inv.fresh e (by omega))

theorem World.Ok.run {w : World K V} (h : w.Ok) {i c : Nat} {op : Op K V} {s : Pt K V} (hv : w.v i = some (op, .inl s)) {g' : G K V}
    {x : Pt K V ⊕ Res K V} (hst : step w.g i op s c = some (g', x)) :
    ∃ gh', World.Ok ⟨g', upd w.v i (some (op, x)), gh', w.lo⟩ ∧ gh'.hist = w.gh.hist := by
  obtain ⟨k1, k2⟩ := step_key hst
  have main : ∀ gh' : Gh K V, GReach mapSpec gh' → I g' (upd w.v i (some (op, x))) gh' → (∀ j, j ≠ i → gh'.st j = w.gh.st j) →
      gh'.st i ≠ .done → World.Ok ⟨g', upd w.v i (some (op, x)), gh', w.lo⟩ := by
    intro gh' h1 h2 h3 h4
    refine ⟨h1, h2, ?_, ?_, Nat.le_trans h.lo k1, ?_, ?_⟩
    · intro j hj
      by_cases hji : j = i
      · subst hji; simp at hj
      · simp only [upd_ne _ _ hji] at hj; rw [h3 j hji]; exact h.idle j hj
    · intro j o t hj
      by_cases hji : j = i
      · subst hji; exact h4
      · simp only [upd_ne _ _ hji] at hj; rw [h3 j hji]; exact h.live j o t hj
    · intro e he
      rcases k2 e he with he | ⟨he, _⟩
      · exact h.keys e he
      · exact Nat.le_trans h.lo he
    · intro j o
      by_cases hji : j = i
      · subst hji; exact not_panic h1 h2 h4
      · simp only [upd_ne _ _ hji]; exact h.calm j o
  rcases inv_step h.reach h.inv hv hst with h1 | ⟨r, s', h1, h2, h3⟩
  · exact ⟨w.gh, main w.gh h.reach h1 (fun _ _ => rfl) (h.live i op s hv), rfl⟩
  · exact ⟨w.gh.commit i op r s', main _ (commit_reach h.reach h1 h2) h3 (fun j hj => by simp [Ghost.commit, upd_ne _ _ hj]) (by simp [Ghost.commit]), rfl⟩

omit [DecidableEq V] in
theorem World.Ok.enter {w : World K V} (h : w.Ok) {i : Nat} (op : Op K V) (hv : w.v i = none) :
    World.Ok ⟨w.g, upd w.v i (some (op, .inl .start)), w.gh.invoke i op, w.lo⟩ := by
  have hst := h.idle i hv
  refine ⟨.step h.reach (.invoke _ i op hst), inv_invoke h.reach h.inv hv hst, ?_, ?_, h.lo, h.keys, ?_⟩
  · intro j hj
    by_cases hji : j = i
    · subst hji; simp at hj
    · simp only [upd_ne _ _ hji] at hj; simp only [Ghost.invoke, upd_ne _ _ hji]; exact h.idle j hj
  · intro j o t hj
    by_cases hji : j = i
    · subst hji; simp [Ghost.invoke]
    · simp only [upd_ne _ _ hji] at hj; simp only [Ghost.invoke, upd_ne _ _ hji]; exact h.live j o t hj
  · intro j o
    by_cases hji : j = i
    · subst hji; simp
    · simp only [upd_ne _ _ hji]; exact h.calm j o

omit [DecidableEq V] in
/-- A call may go to the lock without looking at anything. -/
theorem World.Ok.toLock {w : World K V} (h : w.Ok) {i : Nat} {op : Op K V} (hv : w.v i = some (op, .inl .start)) :
    World.Ok ⟨w.g, upd w.v i (some (op, .inl .lock)), w.gh, w.lo⟩ := by
  have hst : w.gh.st i = .invoked op := h.inv.floc i op _ hv
  have hI : I w.g (upd w.v i (some (op, .inl .lock))) w.gh := by
    rcases quiet_free (x := .inl .lock) h.reach h.inv hv rfl rfl ⟨hst, by simp [Pt.holds]⟩ (fun _ _ hc => absurd hc (not_committed hst)) with
      h | ⟨r, s', h1, h2, h3⟩
    · exact h
    · have := h3.floc i op .lock (by simp)
      simp [FLoc, Ghost.commit] at this
  refine ⟨h.reach, hI, ?_, ?_, h.lo, h.keys, ?_⟩
  · intro j hj
    by_cases hji : j = i
    · subst hji; simp at hj
    · simp only [upd_ne _ _ hji] at hj; exact h.idle j hj
  · intro j o t hj
    by_cases hji : j = i
    · subst hji; exact h.live j op _ hv
    · simp only [upd_ne _ _ hji] at hj; exact h.live j o t hj
  · intro j o
    by_cases hji : j = i
    · subst hji; simp
    · simp only [upd_ne _ _ hji]; exact h.calm j o

omit [DecidableEq V] in
theorem World.Ok.ret {w : World K V} (h : w.Ok) {i : Nat} {op : Op K V} {r : Res K V} (hv : w.v i = some (op, .inr r)) (hd : w.gh.st i ≠ .done) :
    ∃ gh', World.Ok ⟨w.g, w.v, gh', w.lo⟩ ∧ gh'.hist = w.gh.hist ++ [.ret i r] := by
  have main : ∀ gh' : Gh K V, GReach mapSpec gh' → I w.g w.v gh' → gh'.st = upd w.gh.st i .done → World.Ok ⟨w.g, w.v, gh', w.lo⟩ := by
    intro gh' h1 h2 h3
    refine ⟨h1, h2, ?_, ?_, h.lo, h.keys, h.calm⟩
    · intro j hj
      have hji : j ≠ i := by rintro rfl; simp only [hv] at hj; simp at hj
      simp only [h3, upd_ne _ _ hji]; exact h.idle j hj
    · intro j o t hj
      have hji : j ≠ i := by rintro rfl; simp only [hv] at hj; simp at hj
      simp only [h3, upd_ne _ _ hji]; exact h.live j o t hj
  rcases (h.inv.fin i op r hv).1 with h1 | ⟨h1, n, h2, h3⟩ | h1
  · exact ⟨w.gh.retC i r, main _ (.step h.reach (.retC _ i op r h1)) (inv_ret h.reach h.inv hv hd rfl rfl rfl rfl rfl) rfl, rfl⟩
  · exact ⟨w.gh.retR i n op r, main _ (.step h.reach (.retR _ i n op r h1 h2.1 (inst_le h.reach h2) h3)) (inv_ret h.reach h.inv hv hd rfl rfl rfl rfl rfl) rfl, rfl⟩
  · exact absurd h1 hd

/-- The state of the map after `Clear`, for its new entries. -/
def G.cleared (g : G K V) : G K V := { g with mu := none, read := [], amended := false, dirty := none, misses := 0, key := fun _ => none }

/-- A new world. -/
def World.new (g : G K V) : World K V := ⟨G.cleared g, fun _ => none, Ghost.init mapSpec, g.next⟩

omit [DecidableEq V] in
theorem World.new_ok (g : G K V) : (World.new g).Ok :=
  ⟨.init, inv_init ⟨rfl, rfl, rfl, rfl, fun _ _ => rfl⟩, fun _ _ => rfl, by simp [World.new], Nat.le_refl _, by simp [World.new, G.cleared], by simp [World.new]⟩

/-! ## The relation -/

/-- Proof only: part of a measure; models no code. -/
abbrev VwW (K V : Type) := View (Op K V ⊕ ClearOp) (Res K V) (PtW K V)
/-- Proof only: part of a measure; models no code. -/
abbrev HW (K V : Type) := List (Ev (Op K V ⊕ ClearOp) (Res K V))

/-- The call takes no part in the world, or waits for the lock there. -/
def Away (w : World K V) (i : Nat) (op : Op K V) : Prop := w.v i = none ∨ w.v i = some (op, .inl .lock)

/-- The call is in some world; with `b`, it is in the current one. -/
def Loc (W : Nat → World K V) (n i : Nat) (op : Op K V) (y : Pt K V ⊕ Res K V) (b : Bool) : Prop :=
  ∃ w, w ≤ n ∧ (W w).v i = some (op, y) ∧ (b = true → w = n) ∧ ∀ w', w' ≤ n → w' ≠ w → Away (W w') i op

/-- Where a call is in the worlds. -/
def CallRel (W : Nat → World K V) (n i : Nat) : Option ((Op K V ⊕ ClearOp) × (PtW K V ⊕ Res K V)) → Prop
  | some (.inl _, .inl .typ) | some (.inl _, .inl .data) | none | some (.inr _, .inr _) | some (.inr _, .inl (.cl _)) => ∀ w, w ≤ n → (W w).v i = none
  | some (.inl op, .inl (.pt .lock)) => ∀ w, w ≤ n → Away (W w) i op
  | some (.inl op, .inl (.pt s)) => s ≠ .start ∧ Loc W n i op (.inl s) s.holds
  | some (.inl op, .inl (.first s)) | some (.inl op, .inl (.last s)) => s = .amend [] ∧ Loc W n i op (.inl s) true
  | some (.inl op, .inr r) => Loc W n i op (.inr r) false ∨ (r = .panic ∧ ∀ w, w ≤ n → (W w).v i = none)
  | some (.inl _, .inl (.cl _)) | some (.inr _, .inl _) => False

/-- The current world has just begun. -/
def NewG (g : G K V) : Prop := g.read = [] ∧ g.amended = false ∧ g.dirty = none ∧ g.misses = 0

/-- Proof only: part of an invariant or simulation; models no code. -/
def Lower (M : GW K V) (g : G K V) : Prop := M.g.dirty = g.dirty ∧ M.g.misses = g.misses

/-- The state of the program and the current world, depending on what the holder of the lock does. -/
def Cur (M : GW K V) (g g' : G K V) (n : Nat) : Option ((Op K V ⊕ ClearOp) × (PtW K V ⊕ Res K V)) → Prop
  | some (_, .inl (.cl .data)) => M.typ = .nil ∧ 0 < n ∧ (∀ r, M.data = some r → r = (g'.read, g'.amended)) ∧ NewG g
  | some (_, .inl (.cl .typ)) => M.data = none ∧ M.typ ≠ .storing ∧ NewG g
  | some (_, .inl (.cl .dirty)) => M.typ = .nil ∧ M.data = none ∧ NewG g
  | some (_, .inl (.cl .misses)) => M.typ = .nil ∧ M.data = none ∧ NewG g ∧ M.g.dirty = none
  | some (_, .inl (.cl .unlock)) => M.typ = .nil ∧ M.data = none ∧ NewG g ∧ M.g.dirty = none ∧ M.g.misses = 0
  | some (_, .inl (.first _)) => M.typ = .storing ∧ M.data = none ∧ g.read = [] ∧ g.amended = false ∧ Lower M g
  | some (_, .inl (.last _)) => M.typ = .storing ∧ M.data = some ([], true) ∧ g.read = [] ∧ g.amended = false ∧ Lower M g
  | _ => ((M.typ = .readOnly ∧ M.data = some (g.read, g.amended)) ∨ (M.typ = .nil ∧ M.data = none ∧ g.read = [] ∧ g.amended = false)) ∧ Lower M g

/-- The program and the worlds. -/
structure Phys (M : GW K V) (v : VwW K V) (n : Nat) (W : Nat → World K V) : Prop where
  ok : ∀ w, w ≤ n → (W w).Ok
  apart : ∀ w w', w < w' → w' ≤ n → (W w).g.next ≤ (W w').lo
  next : M.g.next = (W n).g.next
  ptr : ∀ w, w ≤ n → ∀ e, (W w).lo ≤ e → e < (W w).g.next → M.g.p e = (W w).g.p e
  old : ∀ w, w < n → (W w).g.mu = none
  mu : ∀ i, (W n).g.mu = some i ↔ M.g.mu = some i ∧ ∃ op x, v i = some (.inl op, x)
  cmu : ∀ i x p, v i = some (.inr x, .inl (.cl p)) → (p ≠ .lock ↔ M.g.mu = some i)
  held : ∀ i, M.g.mu = some i → ∃ o s, v i = some (o, .inl s)
  cur : Cur M (W n).g (W (n - 1)).g n (M.g.mu.bind v)
  calls : ∀ i, CallRel W n i (v i)

/-- A `Clear` has ended a world. -/
def Cleared : PtW K V ⊕ Res K V → Prop
  | .inl (.cl .lock) | .inl (.cl .read) => False
  | _ => True

/-- The history of the program and those of the worlds. `Hp w` is the history until the world `w` began, and `cl w` the `Clear` that ended it. -/
structure Hst (v : VwW K V) (H : HW K V) (n : Nat) (W : Nat → World K V) (Hp : Nat → HW K V) (cl : Nat → Nat) : Prop where
  inv : ∀ i op, Ev.inv i op ∈ H ↔ ∃ x, v i = some (op, x)
  ret : ∀ i r, Ev.ret i r ∈ H → ∃ op, v i = some (op, .inr r)
  cut : ∀ w, w ≤ n → Cut (Hp w) H
  mono : ∀ w w', w ≤ w' → w' ≤ n → ∀ i, HasRet (Hp w) i → HasRet (Hp w') i
  early : ∀ w, w < n → ∀ i, (W w).v i ≠ none → HasInv (Hp (w + 1)) i
  late : ∀ w, w ≤ n → ∀ i, (W w).v i ≠ none → ¬ HasRet (Hp w) i
  winv : ∀ w, w ≤ n → ∀ i op, Ev.inv i op ∈ (W w).gh.hist → ∃ x, (W w).v i = some (op, x)
  wret : ∀ w, w ≤ n → ∀ i r, Ev.ret i r ∈ (W w).gh.hist ↔ Ev.ret i r ∈ H ∧ ∃ op, (W w).v i = some (op, .inr r)
  order : ∀ w, w ≤ n → ∀ a b, HasRet (W w).gh.hist a → (W w).v b ≠ none → Before H a b → Before (W w).gh.hist a b
  clear : ∀ w, w < n → (∃ x, v (cl w) = some (.inr .clear, x) ∧ Cleared x) ∧ HasInv (Hp (w + 1)) (cl w) ∧ ¬ HasRet (Hp (w + 1)) (cl w)
  inj : ∀ w w', w < n → w' < n → cl w = cl w' → w = w'
  all : ∀ i o x, v i = some (.inr o, x) → Cleared x → ∃ w, w < n ∧ cl w = i
  unit : ∀ i o r, v i = some (.inr o, .inr r) → r = .unit

/-- Some `Clear` overlaps the call. -/
def Overlapped (H : HW K V) (i : Nat) : Prop := ∃ j, Ev.inv j (.inr .clear) ∈ H ∧ ¬ Before H j i ∧ ¬ Before H i j

/-- Calls that have loaded `typ`, and panics. -/
structure Torn (M : GW K V) (v : VwW K V) (H : HW K V) (n : Nat) (Hp : Nat → HW K V) : Prop where
  stale : ∀ j o, v j = some (o, .inl (.cl .data)) → ∀ i op, v i = some (.inl op, .inl .data) → HasInv (Hp n) i
  seen : ∀ i op, v i = some (.inl op, .inl .data) → (M.typ = .readOnly ∧ M.data ≠ none) ∨ Overlapped H i
  panic : ∀ i o, v i = some (o, .inr .panic) → Overlapped H i

/-! ## Steps of the history -/

section
variable {v : VwW K V} {H : HW K V} {n : Nat} {W : Nat → World K V} {Hp : Nat → HW K V} {cl : Nat → Nat} {i : Nat}

omit [DecidableEq K] [DecidableEq V] in
theorem Hst.pending (h : Hst v H n W Hp cl) {o : Op K V ⊕ ClearOp} {s : PtW K V} (hv : v i = some (o, .inl s)) : ¬ HasRet H i := by
  rintro ⟨r, hr⟩
  obtain ⟨op, ho⟩ := h.ret i r hr
  rw [hv] at ho; simp at ho

omit [DecidableEq K] [DecidableEq V] in
/-- A call moves on outside of the worlds. -/
theorem Hst.move (h : Hst v H n W Hp cl) {o : Op K V ⊕ ClearOp} {s : PtW K V} {x : PtW K V ⊕ Res K V} (hv : v i = some (o, .inl s))
    (hc : ∀ q, o = .inr q → (Cleared x ↔ Cleared (.inl s : PtW K V ⊕ Res K V)) ∧ ∀ r, x = .inr r → r = .unit) : Hst (upd v i (some (o, x))) H n W Hp cl := by
  have hp := h.pending hv
  refine ⟨?_, ?_, h.cut, h.mono, h.early, h.late, h.winv, h.wret, h.order, ?_, h.inj, ?_, ?_⟩
  · intro j op
    rw [h.inv]
    by_cases hj : j = i
    · subst hj; simp [hv]
    · simp [upd_ne _ _ hj]
  · intro j r hr
    have hj : j ≠ i := by rintro rfl; exact hp ⟨r, hr⟩
    rw [upd_ne _ _ hj]; exact h.ret j r hr
  · intro w hw
    obtain ⟨⟨y, h1, h2⟩, h3⟩ := h.clear w hw
    refine ⟨?_, h3⟩
    by_cases hj : cl w = i
    · rw [hj] at h1 ⊢
      rw [hv] at h1
      simp only [Option.some.injEq, Prod.mk.injEq] at h1
      exact ⟨x, by simp [h1.1], ((hc _ h1.1).1).2 (by rw [h1.2]; exact h2)⟩
    · exact ⟨y, by rw [upd_ne _ _ hj]; exact h1, h2⟩
  · intro j q y hj hy
    by_cases hji : j = i
    · subst hji
      simp only [upd_same, Option.some.injEq, Prod.mk.injEq] at hj
      obtain ⟨rfl, rfl⟩ := hj
      exact h.all j q _ hv ((hc q rfl).1.1 hy)
    · rw [upd_ne _ _ hji] at hj; exact h.all j q y hj hy
  · intro j q r hj
    by_cases hji : j = i
    · subst hji
      simp only [upd_same, Option.some.injEq, Prod.mk.injEq] at hj
      obtain ⟨rfl, rfl⟩ := hj
      exact (hc q rfl).2 r rfl
    · rw [upd_ne _ _ hji] at hj; exact h.unit j q r hj

omit [DecidableEq K] [DecidableEq V] in
/-- A call moves on in a world. -/
theorem Hst.run (h : Hst v H n W Hp cl) {op : Op K V} {s : PtW K V} {x : PtW K V ⊕ Res K V} (hv : v i = some (.inl op, .inl s)) {w : Nat}
    {t : Pt K V} {y : Pt K V ⊕ Res K V} (hw : (W w).v i = some (op, .inl t)) {g' : G K V} {gh' : Gh K V} {lo : Nat} (hh : gh'.hist = (W w).gh.hist) :
    Hst (upd v i (some (.inl op, x))) H n (upd W w ⟨g', upd (W w).v i (some (op, y)), gh', lo⟩) Hp cl := by
  have hp := h.pending hv
  have h' := h.move (x := x) hv (by simp)
  have vv : ∀ w' j, (upd W w ⟨g', upd (W w).v i (some (op, y)), gh', lo⟩ w').v j ≠ none ↔ (W w').v j ≠ none := by
    intro w' j
    by_cases hw' : w' = w
    · subst hw'
      by_cases hj : j = i
      · subst hj; simp [hw]
      · simp [upd_ne _ _ hj]
    · simp [upd_ne _ _ hw']
  have hist : ∀ w', (upd W w ⟨g', upd (W w).v i (some (op, y)), gh', lo⟩ w').gh.hist = (W w').gh.hist := by
    intro w'
    by_cases hw' : w' = w
    · subst hw'; simp [hh]
    · simp [upd_ne _ _ hw']
  refine ⟨h'.inv, h'.ret, h.cut, h.mono, ?_, ?_, ?_, ?_, ?_, h'.clear, h.inj, h'.all, h'.unit⟩
  · intro w' hw' j hj; exact h.early w' hw' j ((vv w' j).1 hj)
  · intro w' hw' j hj; exact h.late w' hw' j ((vv w' j).1 hj)
  · intro w' hw' j o ho
    rw [hist] at ho
    obtain ⟨z, hz⟩ := h.winv w' hw' j o ho
    by_cases hww : w' = w
    · subst hww
      by_cases hj : j = i
      · subst hj
        rw [hw] at hz
        simp only [Option.some.injEq, Prod.mk.injEq] at hz
        exact ⟨y, by simp [hz.1]⟩
      · exact ⟨z, by simp [upd_ne _ _ hj, hz]⟩
    · exact ⟨z, by simp [upd_ne _ _ hww, hz]⟩
  · intro w' hw' j r
    rw [hist, h.wret w' hw']
    refine and_congr_right fun hr => ?_
    have hj : j ≠ i := by rintro rfl; exact hp ⟨r, hr⟩
    by_cases hww : w' = w
    · subst hww; simp [upd_ne _ _ hj]
    · simp [upd_ne _ _ hww]
  · intro w' hw' a b ha hb
    rw [hist] at ha ⊢
    exact h.order w' hw' a b ha ((vv w' b).1 hb)

omit [DecidableEq K] [DecidableEq V] in
/-- A call enters a world. -/
theorem Hst.enter (h : Hst v H n W Hp cl) {op : Op K V} {s : PtW K V} {x : PtW K V ⊕ Res K V} (hv : v i = some (.inl op, .inl s)) {w : Nat}
    (hwn : w ≤ n) (hearly : w < n → HasInv (Hp (w + 1)) i)
    {y : Pt K V ⊕ Res K V} (hw : (W w).v i = none) {g' : G K V} {gh' : Gh K V} {lo : Nat} (hh : gh'.hist = (W w).gh.hist ++ [.inv i op]) :
    Hst (upd v i (some (.inl op, x))) H n (upd W w ⟨g', upd (W w).v i (some (op, y)), gh', lo⟩) Hp cl := by
  have hp := h.pending hv
  have h' := h.move (x := x) hv (by simp)
  have other : ∀ w' j, (w' ≠ w ∨ j ≠ i) → (upd W w ⟨g', upd (W w).v i (some (op, y)), gh', lo⟩ w').v j = (W w').v j := by
    intro w' j hj
    by_cases hw' : w' = w
    · subst hw'
      have hj : j ≠ i := by rcases hj with hj | hj; exact absurd rfl hj; exact hj
      simp [upd_ne _ _ hj]
    · simp [upd_ne _ _ hw']
  have hist : ∀ w', w' ≠ w → (upd W w ⟨g', upd (W w).v i (some (op, y)), gh', lo⟩ w').gh.hist = (W w').gh.hist := by
    intro w' hw'
    simp [upd_ne _ _ hw']
  refine ⟨h'.inv, h'.ret, h.cut, h.mono, ?_, ?_, ?_, ?_, ?_, h'.clear, h.inj, h'.all, h'.unit⟩
  · intro w' hw' j hj
    by_cases hc : w' ≠ w ∨ j ≠ i
    · rw [other w' j hc] at hj; exact h.early w' hw' j hj
    · simp only [not_or, not_not] at hc
      obtain ⟨rfl, rfl⟩ := hc
      exact hearly hw'
  · intro w' hw' j hj
    by_cases hc : w' ≠ w ∨ j ≠ i
    · rw [other w' j hc] at hj; exact h.late w' hw' j hj
    · simp only [not_or, not_not] at hc
      obtain ⟨rfl, rfl⟩ := hc
      exact fun hr => hp ((h.cut w' hw').ret hr)
  · intro w' hw' j o ho
    by_cases hww : w' = w
    · subst hww
      simp only [upd_same, hh, List.mem_append, List.mem_singleton, Ev.inv.injEq] at ho
      rcases ho with ho | ⟨rfl, rfl⟩
      · obtain ⟨z, hz⟩ := h.winv w' hw' j o ho
        have hj : j ≠ i := by rintro rfl; rw [hw] at hz; simp at hz
        exact ⟨z, by simp [upd_ne _ _ hj, hz]⟩
      · exact ⟨y, by simp⟩
    · rw [hist w' hww] at ho
      simp only [upd_ne _ _ hww]
      exact h.winv w' hw' j o ho
  · intro w' hw' j r
    have e1 : Ev.ret j r ∈ (upd W w ⟨g', upd (W w).v i (some (op, y)), gh', lo⟩ w').gh.hist ↔ Ev.ret j r ∈ (W w').gh.hist := by
      by_cases hww : w' = w
      · subst hww; simp [hh]
      · simp [upd_ne _ _ hww]
    rw [e1, h.wret w' hw']
    refine and_congr_right fun hr => ?_
    have hj : j ≠ i := by rintro rfl; exact hp ⟨r, hr⟩
    rw [other w' j (Or.inr hj)]
  · intro w' hw' a b ha hb hab
    by_cases hww : w' = w
    · subst hww
      replace ha : HasRet (W w').gh.hist a := by
        obtain ⟨r, hr⟩ := ha
        simp only [upd_same, hh, List.mem_append, List.mem_singleton, reduceCtorEq, or_false] at hr
        exact ⟨r, hr⟩
      by_cases hbi : b = i
      · subst hbi
        obtain ⟨r, hra⟩ := ha
        simp only [upd_same, hh]
        exact ⟨_, _, r, op, rfl, hra, by simp⟩
      · rw [other w' b (Or.inr hbi)] at hb
        obtain ⟨H₁, H₂, r, o, e, q1, q2⟩ := h.order w' hw' a b ha hb hab
        simp only [upd_same, hh]
        exact ⟨H₁, H₂ ++ [.inv i op], r, o, by rw [e]; simp, q1, by simp [q2]⟩
    · rw [other w' b (Or.inl hww)] at hb
      rw [hist w' hww] at ha ⊢
      exact h.order w' hw' a b ha hb hab

omit [DecidableEq K] [DecidableEq V] in
theorem Hst.invoke (h : Hst v H n W Hp cl) (op : Op K V ⊕ ClearOp) {x : PtW K V} (hv : v i = none) (hw : ∀ w, w ≤ n → (W w).v i = none)
    (hx : ∀ q, op = .inr q → ¬ Cleared (.inl x : PtW K V ⊕ Res K V)) : Hst (upd v i (some (op, .inl x))) (H ++ [.inv i op]) n W Hp cl := by
  have hni : ¬ HasInv H i := by
    rintro ⟨o, ho⟩
    obtain ⟨y, hy⟩ := (h.inv i o).1 ho
    rw [hv] at hy; simp at hy
  refine ⟨?_, ?_, ?_, h.mono, h.early, h.late, h.winv, ?_, ?_, ?_, h.inj, ?_, ?_⟩
  · intro j o
    simp only [List.mem_append, List.mem_singleton, Ev.inv.injEq, h.inv]
    by_cases hj : j = i
    · subst hj; simp [hv, eq_comm]
    · simp [upd_ne _ _ hj, hj]
  · intro j r hr
    simp only [List.mem_append, List.mem_singleton, reduceCtorEq, or_false] at hr
    obtain ⟨o, ho⟩ := h.ret j r hr
    have hj : j ≠ i := by rintro rfl; rw [hv] at ho; simp at ho
    exact ⟨o, by rw [upd_ne _ _ hj]; exact ho⟩
  · intro w hwn
    refine (h.cut w hwn).append ?_
    rintro j o e
    simp only [Ev.inv.injEq] at e
    rw [← e.1]; exact hni
  · intro w hwn j r
    simp only [List.mem_append, List.mem_singleton, reduceCtorEq, or_false]
    exact h.wret w hwn j r
  · intro w hwn a b ha hb hab
    have hbi : b ≠ i := by rintro rfl; exact hb (hw w hwn)
    exact h.order w hwn a b ha hb (before_left hab (by rintro ⟨o, ho⟩; simp at ho; exact hbi ho.1))
  · intro w hwn
    obtain ⟨⟨y, h1, h2⟩, h3⟩ := h.clear w hwn
    have hj : cl w ≠ i := by intro e; rw [e, hv] at h1; simp at h1
    exact ⟨⟨y, by rw [upd_ne _ _ hj]; exact h1, h2⟩, h3⟩
  · intro j q y hj hy
    by_cases hji : j = i
    · subst hji
      simp only [upd_same, Option.some.injEq, Prod.mk.injEq] at hj
      obtain ⟨rfl, rfl⟩ := hj
      exact absurd hy (hx q rfl)
    · rw [upd_ne _ _ hji] at hj; exact h.all j q y hj hy
  · intro j q r hj
    by_cases hji : j = i
    · subst hji; simp at hj
    · rw [upd_ne _ _ hji] at hj; exact h.unit j q r hj

omit [DecidableEq K] [DecidableEq V] in
/-- A result that no world knows about is returned. -/
theorem Hst.retOut (h : Hst v H n W Hp cl) {o : Op K V ⊕ ClearOp} {r : Res K V} (hv : v i = some (o, .inr r))
    (hw : Ev.ret i r ∈ H ∨ ∀ w, w ≤ n → ∀ op, (W w).v i ≠ some (op, .inr r)) : Hst v (H ++ [.ret i r]) n W Hp cl := by
  refine ⟨?_, ?_, ?_, h.mono, h.early, h.late, h.winv, ?_, ?_, h.clear, h.inj, h.all, h.unit⟩
  · intro j op
    simp only [List.mem_append, List.mem_singleton, reduceCtorEq, or_false]
    exact h.inv j op
  · intro j r' hr
    simp only [List.mem_append, List.mem_singleton, Ev.ret.injEq] at hr
    rcases hr with hr | ⟨rfl, rfl⟩
    · exact h.ret j r' hr
    · exact ⟨o, hv⟩
  · intro w hwn
    exact (h.cut w hwn).append (by simp)
  · intro w hwn j r'
    rw [h.wret w hwn]
    simp only [List.mem_append, List.mem_singleton, Ev.ret.injEq]
    refine and_congr_left fun hj => ⟨Or.inl, ?_⟩
    rintro (hr | ⟨rfl, rfl⟩)
    · exact hr
    · rcases hw with hw | hw
      · exact hw
      · obtain ⟨op, hop⟩ := hj
        exact absurd hop (hw w hwn op)
  · intro w hwn a b ha hb hab
    exact h.order w hwn a b ha hb (before_left hab (by rintro ⟨o, ho⟩; simp at ho))

omit [DecidableEq K] [DecidableEq V] in
/-- A result is returned in the world of the call. -/
theorem Hst.retIn (h : Hst v H n W Hp cl) {op : Op K V} {r : Res K V} (hv : v i = some (.inl op, .inr r)) (hn : ¬ HasRet H i) {w : Nat}
    (hw : (W w).v i = some (op, .inr r)) (hoth : ∀ w', w' ≤ n → w' ≠ w → Away (W w') i op)
    {gh' : Gh K V} (hh : gh'.hist = (W w).gh.hist ++ [.ret i r]) :
    Hst v (H ++ [.ret i r]) n (upd W w ⟨(W w).g, (W w).v, gh', (W w).lo⟩) Hp cl := by
  have vv : ∀ w', (upd W w ⟨(W w).g, (W w).v, gh', (W w).lo⟩ w').v = (W w').v := by
    intro w'
    by_cases hw' : w' = w
    · subst hw'; simp
    · simp [upd_ne _ _ hw']
  have hbl : ∀ a b, Before (H ++ [.ret i r]) a b → Before H a b := fun a b hab => before_left hab (by rintro ⟨o, ho⟩; simp at ho)
  refine ⟨?_, ?_, ?_, h.mono, ?_, ?_, ?_, ?_, ?_, h.clear, h.inj, h.all, h.unit⟩
  · intro j op
    simp only [List.mem_append, List.mem_singleton, reduceCtorEq, or_false]
    exact h.inv j op
  · intro j r' hr
    simp only [List.mem_append, List.mem_singleton, Ev.ret.injEq] at hr
    rcases hr with hr | ⟨rfl, rfl⟩
    · exact h.ret j r' hr
    · exact ⟨_, hv⟩
  · intro w hwn
    exact (h.cut w hwn).append (by simp)
  · intro w' hw' j hj; rw [vv] at hj; exact h.early w' hw' j hj
  · intro w' hw' j hj; rw [vv] at hj; exact h.late w' hw' j hj
  · intro w' hw' j o ho
    rw [vv]
    by_cases hww : w' = w
    · subst hww
      simp only [upd_same, hh, List.mem_append, List.mem_singleton, reduceCtorEq, or_false] at ho
      exact h.winv w' hw' j o ho
    · simp only [upd_ne _ _ hww] at ho; exact h.winv w' hw' j o ho
  · intro w' hw' j r'
    rw [vv]
    by_cases hww : w' = w
    · subst hww
      simp only [upd_same, hh, List.mem_append, List.mem_singleton, Ev.ret.injEq, h.wret w' hw' j r']
      constructor
      · rintro (⟨h1, h2⟩ | ⟨rfl, rfl⟩)
        · exact ⟨Or.inl h1, h2⟩
        · exact ⟨Or.inr ⟨rfl, rfl⟩, op, hw⟩
      · rintro ⟨h1 | h1, h2⟩
        · exact Or.inl ⟨h1, h2⟩
        · exact Or.inr h1
    · simp only [upd_ne _ _ hww, List.mem_append, List.mem_singleton, Ev.ret.injEq, h.wret w' hw' j r']
      refine and_congr_left fun hj => ⟨Or.inl, ?_⟩
      rintro (hr | ⟨rfl, rfl⟩)
      · exact hr
      · obtain ⟨o, ho⟩ := hj
        rcases hoth w' hw' hww with h1 | h1 <;> rw [h1] at ho <;> simp at ho
  · intro w' hw' a b ha hb hab
    replace hab := hbl a b hab
    rw [vv] at hb
    by_cases hww : w' = w
    · subst hww
      simp only [upd_same, hh] at ha ⊢
      have hai : a ≠ i := by rintro rfl; exact hn (before_mem hab).1
      obtain ⟨r', hr⟩ := ha
      simp only [List.mem_append, List.mem_singleton, Ev.ret.injEq, hai, false_and, or_false] at hr
      obtain ⟨H₁, H₂, r₀, o, e, q1, q2⟩ := h.order w' hw' a b ⟨r', hr⟩ hb hab
      exact ⟨H₁, H₂ ++ [.ret i r], r₀, o, by rw [e]; simp, q1, by simp [q2]⟩
    · simp only [upd_ne _ _ hww] at ha ⊢
      exact h.order w' hw' a b ha hb hab

omit [DecidableEq V] in
/-- `Clear` ends a world. -/
theorem Hst.commit (h : Hst v H n W Hp cl) {x : PtW K V} (hv : v i = some (.inr .clear, .inl (.cl .read)))
    (hx : Cleared (.inl x : PtW K V ⊕ Res K V)) (hin : ∀ w, w ≤ n → ∀ j, (W w).v j ≠ none → v j ≠ none) (g : G K V) :
    Hst (upd v i (some (.inr .clear, .inl x))) H (n + 1) (upd W (n + 1) (World.new g)) (upd Hp (n + 1) H) (upd cl n i) := by
  have hp := h.pending hv
  have hi : HasInv H i := ⟨_, (h.inv i _).2 ⟨_, hv⟩⟩
  have hold : ∀ w, w < n → cl w ≠ i := by
    intro w hw e
    obtain ⟨⟨y, h1, h2⟩, _⟩ := h.clear w hw
    rw [e, hv] at h1
    simp only [Option.some.injEq, Prod.mk.injEq, true_and] at h1
    rw [← h1] at h2
    exact h2
  have ne : ∀ w, w ≤ n → w ≠ n + 1 := fun w hw => by omega
  have hnew : ∀ j, (World.new g).v j = none := fun _ => rfl
  refine ⟨?_, ?_, ?_, ?_, ?_, ?_, ?_, ?_, ?_, ?_, ?_, ?_, ?_⟩
  · intro j op
    rw [h.inv]
    by_cases hj : j = i
    · subst hj; simp [hv]
    · simp [upd_ne _ _ hj]
  · intro j r hr
    have hj : j ≠ i := by rintro rfl; exact hp ⟨r, hr⟩
    rw [upd_ne _ _ hj]; exact h.ret j r hr
  · intro w hw
    by_cases e : w = n + 1
    · subst e; simp only [upd_same]; exact Cut.self H
    · rw [upd_ne _ _ e]; exact h.cut w (by omega)
  · intro w w' h1 h2 j hj
    by_cases e : w = n + 1
    · have : w' = w := by omega
      subst this; exact hj
    · rw [upd_ne _ _ e] at hj
      by_cases e' : w' = n + 1
      · subst e'; simp only [upd_same]; exact (h.cut w (by omega)).ret hj
      · rw [upd_ne _ _ e']; exact h.mono w w' h1 (by omega) j hj
  · intro w hw j hj
    rw [upd_ne _ _ (ne w (by omega))] at hj
    by_cases e : w = n
    · subst e
      simp only [upd_same]
      have := hin w (Nat.le_refl _) j hj
      cases hvj : v j with
      | none => exact absurd hvj this
      | some y => exact ⟨y.1, (h.inv j _).2 ⟨y.2, by rw [hvj]⟩⟩
    · rw [upd_ne _ _ (by omega)]; exact h.early w (by omega) j hj
  · intro w hw j hj
    by_cases e : w = n + 1
    · subst e; simp [hnew] at hj
    · rw [upd_ne _ _ e] at hj ⊢; exact h.late w (by omega) j hj
  · intro w hw j op ho
    by_cases e : w = n + 1
    · subst e; simp [World.new, Ghost.init] at ho
    · rw [upd_ne _ _ e] at ho ⊢; exact h.winv w (by omega) j op ho
  · intro w hw j r
    by_cases e : w = n + 1
    · subst e; simp [World.new, Ghost.init]
    · rw [upd_ne _ _ e]; exact h.wret w (by omega) j r
  · intro w hw a b ha hb hab
    by_cases e : w = n + 1
    · subst e; simp [hnew] at hb
    · rw [upd_ne _ _ e] at ha hb ⊢; exact h.order w (by omega) a b ha hb hab
  · intro w hw
    by_cases e : w = n
    · subst e
      simp only [upd_same, Option.some.injEq, Prod.mk.injEq, true_and, exists_eq_left']
      exact ⟨hx, hi, hp⟩
    · obtain ⟨⟨y, h1, h2⟩, h3⟩ := h.clear w (by omega)
      rw [upd_ne cl _ e, upd_ne Hp _ (by omega), upd_ne v _ (hold w (by omega))]
      exact ⟨⟨y, h1, h2⟩, h3⟩
  · intro w w' h1 h2 e
    by_cases e1 : w = n <;> by_cases e2 : w' = n
    · omega
    · subst e1; simp only [upd_same, upd_ne _ _ e2] at e; exact absurd e.symm (hold w' (by omega))
    · subst e2; simp only [upd_same, upd_ne _ _ e1] at e; exact absurd e (hold w (by omega))
    · simp only [upd_ne _ _ e1, upd_ne _ _ e2] at e; exact h.inj w w' (by omega) (by omega) e
  · intro j o y hj hy
    by_cases hji : j = i
    · subst hji; exact ⟨n, by omega, by simp⟩
    · rw [upd_ne _ _ hji] at hj
      obtain ⟨w, hw, e⟩ := h.all j o y hj hy
      exact ⟨w, by omega, by rw [upd_ne _ _ (by omega)]; exact e⟩
  · intro j q r hj
    by_cases hji : j = i
    · subst hji; simp at hj
    · rw [upd_ne _ _ hji] at hj; exact h.unit j q r hj

end

end Verif.XSync.MapWords

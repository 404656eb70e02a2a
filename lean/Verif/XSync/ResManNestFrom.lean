import Verif.XSync.ResManNestProps
/-!
# C143: where the results of `Get` come from when create functions use the manager

The model of C114. The errors `E` may be read as errors or panic values (`E = Err ⊕ Val`): singleflight publishes a panic of its function as the outcome
of the flight and panics again in all calls that share it (see `ResManPanic.lean`), so a create function that panics is one that ends with `.inr p`, and
a create function that has called `Get` sees `.failed (.inr p)` of it, which it may recover (and go on) or not (and end with `.inr p`, too). Simplified: singleflight wraps the panic value (`panicError`), once
for every `Get` that it leaves; the value here is the innermost one. This reading does not extend to `Close` methods: the model goes on after a method
that ends with `.inr p`, whereas a panic of a method leaves the lock held (C107).
-/
namespace Verif.XSync.ResManNest
open Verif.Conc
open Verif.XSync.ResMan (Outcome find erase insert)

variable {K E : Type}

/-! ## Specification -/

/-- A user function can come to `q`: after some of its calls, with some results of them. -/
inductive Tree.Later : Tree K E → Tree K E → Prop
  | refl (p : Tree K E) : Later p p
  | get (k : K) (create : Tree K E) (f : Outcome E → Tree K E) (o : Outcome E) (q : Tree K E) : Later (f o) q → Later (.get k create f) q
  | remove (k : K) (f : Bool → Tree K E) (b : Bool) (q : Tree K E) : Later (f b) q → Later (.remove k f) q

/-- In the call `op` the create function `create` can be passed to `Get(k, …)`: by the caller, or by a create function that is passed to a `Get` in the
call, or by the `Close` method of a resource. -/
inductive Given (clm : Nat → Tree K E) : Op K E → K → Tree K E → Prop
  | call (k : K) (create : Tree K E) : Given clm (.get k create) k create
  | nested (op : Op K E) (k k' : K) (p create : Tree K E) (f : Outcome E → Tree K E) : Given clm op k p → p.Later (.get k' create f) → Given clm op k' create
  | method (r : Nat) (k : K) (create : Tree K E) (f : Outcome E → Tree K E) : (clm r).Later (.get k create f) → Given clm .close k create

/-! ## Proof -/

theorem Tree.Later.trans {p q r : Tree K E} (h : p.Later q) (h' : q.Later r) : p.Later r := by
  induction h with
  | refl => exact h'
  | get k c f o q _ ih => exact .get k c f o r (ih h')
  | remove k f b q _ ih => exact .remove k f b r (ih h')

/-- Proof only: the flights of a goroutine that singleflight's map may still have. -/
def act : Pt K E ⊕ Res E → List (K × Nat)
  | .inl (.frame k p u) => match p with
    | .lookup t _ | .creating t _ | .store t | .finish t _ | .drop t _ => (k, t) :: u.leads
    | _ => u.leads
  | _ => []

theorem act_leave (u : Under K E) (o : Outcome E) : act (leave u o) = u.leads := by
  cases u <;> cases o <;> simp [leave, act, Under.leads]

/-- Proof only: what is known of a stack; `lead t` is the key of the flight `t` and the call that leads it. -/
def Under.From (clm : Nat → Tree K E) (lead : Nat → Option (K × Nat)) (i : Nat) (op : Op K E) : Under K E → Prop
  | .user => True
  | .create k t f u => lead t = some (k, i) ∧ (∃ c, Given clm op k c ∧ ∀ o, c.Later (f o)) ∧ u.From clm lead i op
  | .close _ f => op = .close ∧ ∃ r, ∀ o, (clm r).Later (f o)

/-- Proof only: what is known of a call; `NB` are the calls that have not returned before it, and `Src` the errors it may return. -/
def fromX (clm : Nat → Tree K E) (lead : Nat → Option (K × Nat)) (NB : Nat → Prop) (Src : K → E → Prop) (i : Nat) (op : Op K E) : Pt K E ⊕ Res E → Prop
  | .inl (.frame k p u) => (∀ k', u.base k = some k' → ∃ cr, op = .get k' cr) ∧ u.From clm lead i op ∧ match p with
    | .start c => Given clm op k c
    | .wait t => ∃ j, lead t = some (k, j) ∧ NB j
    | .lookup t c => lead t = some (k, i) ∧ Given clm op k c
    | .creating t p => lead t = some (k, i) ∧ ∃ c, Given clm op k c ∧ c.Later p
    | .store t => lead t = some (k, i)
    | .finish t o | .drop t o => lead t = some (k, i) ∧ ∀ e, o = .failed e → ∃ c, Given clm op k c ∧ c.Later (.ret (some e))
  | .inl (.remove _) => True
  | .inl .lock | .inl (.closing _) => op = .close
  | .inl (.method _ p) => op = .close ∧ ∃ r, (clm r).Later p
  | .inr (.get (.failed e)) => ∃ k cr, op = .get k cr ∧ Src k e
  | .inr _ => True

section
variable {clm : Nat → Tree K E} {lead lead' : Nat → Option (K × Nat)} {NB NB' : Nat → Prop} {Src Src' : K → E → Prop} {i : Nat} {op : Op K E}

theorem Under.From.mono (hl : ∀ t x, lead t = some x → lead' t = some x) : ∀ {u : Under K E}, u.From clm lead i op → u.From clm lead' i op
  | .user, _ => trivial
  | .create _ _ _ _, ⟨h1, h2, h3⟩ => ⟨hl _ _ h1, h2, Under.From.mono hl h3⟩
  | .close _ _, h => h

theorem from_mono (hl : ∀ t x, lead t = some x → lead' t = some x) (hn : ∀ j, NB j → NB' j) (hs : ∀ k e, Src k e → Src' k e) {x : Pt K E ⊕ Res E}
    (h : fromX clm lead NB Src i op x) : fromX clm lead' NB' Src' i op x := by
  cases x with
  | inl s =>
    cases s with
    | frame k p u =>
      obtain ⟨h1, h2, h3⟩ := h
      refine ⟨h1, h2.mono hl, ?_⟩
      cases p with
      | start _ => exact h3
      | wait t => obtain ⟨j, a, b⟩ := h3; exact ⟨j, hl _ _ a, hn _ b⟩
      | lookup t _ => exact ⟨hl _ _ h3.1, h3.2⟩
      | creating t _ => exact ⟨hl _ _ h3.1, h3.2⟩
      | store t => exact hl _ _ h3
      | finish t o => exact ⟨hl _ _ h3.1, h3.2⟩
      | drop t o => exact ⟨hl _ _ h3.1, h3.2⟩
    | remove k => trivial
    | lock => exact h
    | closing _ => exact h
    | method _ _ => exact h
  | inr r =>
    cases r with
    | get o =>
      cases o with
      | failed e => obtain ⟨k, cr, h1, h2⟩ := h; exact ⟨k, cr, h1, hs _ _ h2⟩
      | _ => trivial
    | _ => trivial

theorem from_leave {k : K} {u : Under K E} {o : Outcome E} (h1 : ∀ k', u.base k = some k' → ∃ cr, op = .get k' cr) (h2 : u.From clm lead i op)
    (h3 : ∀ e, o = .failed e → Src k e) : fromX clm lead NB Src i op (leave u o) := by
  cases u with
  | user =>
    cases o with
    | failed e => obtain ⟨cr, h⟩ := h1 k rfl; exact ⟨k, cr, h, h3 e rfl⟩
    | _ => trivial
  | create k' t f u =>
    obtain ⟨h4, ⟨c, h5, h6⟩, h7⟩ := h2
    cases o with
    | panic => exact ⟨h1, h7, h4, by simp⟩
    | got r => exact ⟨h1, h7, h4, c, h5, h6 _⟩
    | failed e => exact ⟨h1, h7, h4, c, h5, h6 _⟩
  | close todo f =>
    obtain ⟨h4, r, h5⟩ := h2
    cases o with
    | panic => trivial
    | got _ => exact ⟨h4, r, h5 _⟩
    | failed _ => exact ⟨h4, r, h5 _⟩

end

/-- Proof only: the call `j` can have ended the create function for `k` with `e`. -/
def Ended (clm : Nat → Tree K E) (v : VN K E) (j : Nat) (k : K) (e : Option E) : Prop :=
  ∃ op x c, v j = some (op, x) ∧ Given clm op k c ∧ c.Later (.ret e)

theorem Ended.upd {clm : Nat → Tree K E} {v : VN K E} {j i : Nat} {k : K} {e : Option E} {op : Op K E} {y x : Pt K E ⊕ Res E} (hv : v i = some (op, y))
    (h : Ended clm v j k e) : Ended clm (upd v i (some (op, x))) j k e := by
  obtain ⟨op', z, c, h1, h2, h3⟩ := h
  by_cases hj : j = i
  · subst hj
    rw [hv] at h1
    simp only [Option.some.injEq, Prod.mk.injEq] at h1
    obtain ⟨rfl, rfl⟩ := h1
    exact ⟨op, x, c, by simp, h2, h3⟩
  · exact ⟨op', z, c, by rw [upd_ne _ _ hj]; exact h1, h2, h3⟩

/-- Proof only: the errors that the call `i` may return for the key `k`. -/
def SrcOf (clm : Nat → Tree K E) (v : VN K E) (H : List (Ev (Op K E) (Res E))) (i : Nat) (k : K) (e : E) : Prop :=
  ∃ l, Ended clm v l k (some e) ∧ ¬ Before H l i ∧ ¬ Before H i l

/-- Proof only: the invariant. -/
structure FromInv (clm : Nat → Tree K E) (lead : Nat → Option (K × Nat)) (g : G K E) (v : VN K E) (H : List (Ev (Op K E) (Res E))) : Prop where
  lt : ∀ t x, lead t = some x → t < g.next
  flight : ∀ k t, g.flight k = some t → ∃ j op x, lead t = some (k, j) ∧ v j = some (op, x) ∧ (k, t) ∈ act x
  fin : ∀ t k j e, lead t = some (k, j) → g.fin t = some (.failed e) → Ended clm v j k (some e)
  unfin : ∀ t, g.next ≤ t → g.fin t = none
  made : ∀ k t, .created k t ∈ g.log → ∃ j, Ended clm v j k none
  rets : ∀ j r, Ev.ret j r ∈ H → ∃ op, v j = some (op, .inr r)
  good : ∀ i op x, v i = some (op, x) → fromX clm lead (fun j => ¬ Before H j i) (SrcOf clm v H i) i op x

variable [DecidableEq K]

section
variable {clm : Nat → Tree K E} {lead lead' : Nat → Option (K × Nat)} {g g' : G K E} {v : VN K E} {H : List (Ev (Op K E) (Res E))} {i : Nat} {op : Op K E}
  {s : Pt K E} {x : Pt K E ⊕ Res E}

omit [DecidableEq K] in
/-- A step of the call `i`, taken apart. -/
theorem FromInv.step (hI : FromInv clm lead g v H) (hv : v i = some (op, .inl s)) (hl : ∀ t y, lead t = some y → lead' t = some y)
    (h1 : ∀ t y, lead' t = some y → t < g'.next)
    (h2 : ∀ k t, g'.flight k = some t → g.flight k = some t ∧ ((k, t) ∈ act (.inl s : Pt K E ⊕ Res E) → (k, t) ∈ act x) ∨ lead' t = some (k, i) ∧ (k, t) ∈ act x)
    (h3 : ∀ t k j e, lead' t = some (k, j) → g'.fin t = some (.failed e) → lead t = some (k, j) ∧ g.fin t = some (.failed e) ∨ Ended clm v j k (some e))
    (h4 : ∀ t, g'.next ≤ t → g'.fin t = none)
    (h5 : ∀ k t, .created k t ∈ g'.log → .created k t ∈ g.log ∨ Ended clm v i k none)
    (h7 : fromX clm lead' (fun j => ¬ Before H j i) (SrcOf clm v H i) i op x) : FromInv clm lead' g' (Conc.upd v i (some (op, x))) H := by
  have src : ∀ j k e, SrcOf clm v H j k e → SrcOf clm (Conc.upd v i (some (op, x))) H j k e := fun j k e ⟨l, a, b⟩ => ⟨l, a.upd hv, b⟩
  refine ⟨h1, ?_, ?_, h4, ?_, ?_, ?_⟩
  · intro k t ht
    rcases h2 k t ht with ⟨a, b⟩ | ⟨a, b⟩
    · obtain ⟨j, op', y, c1, c2, c3⟩ := hI.flight k t a
      by_cases hj : j = i
      · subst hj
        rw [hv] at c2
        simp only [Option.some.injEq, Prod.mk.injEq] at c2
        obtain ⟨rfl, rfl⟩ := c2
        exact ⟨j, op, x, hl _ _ c1, by simp, b c3⟩
      · exact ⟨j, op', y, hl _ _ c1, by rw [upd_ne _ _ hj]; exact c2, c3⟩
    · exact ⟨i, op, x, a, by simp, b⟩
  · intro t k j e a b
    rcases h3 t k j e a b with ⟨c, d⟩ | c
    · exact (hI.fin t k j e c d).upd hv
    · exact c.upd hv
  · intro k t a
    rcases h5 k t a with b | b
    · obtain ⟨j, c⟩ := hI.made k t b; exact ⟨j, c.upd hv⟩
    · exact ⟨i, b.upd hv⟩
  · intro j r hr
    obtain ⟨op', a⟩ := hI.rets j r hr
    have hj : j ≠ i := by rintro rfl; rw [hv] at a; simp at a
    exact ⟨op', by rw [upd_ne _ _ hj]; exact a⟩
  · intro j op' y hj
    by_cases hji : j = i
    · subst hji
      simp only [upd_same, Option.some.injEq, Prod.mk.injEq] at hj
      obtain ⟨rfl, rfl⟩ := hj
      exact from_mono (fun _ _ h => h) (fun _ h => h) (src j) h7
    · rw [upd_ne _ _ hji] at hj
      exact from_mono hl (fun _ h => h) (src j) (hI.good j op' y hj)

omit [DecidableEq K] in
/-- A step that changes only the resources, the lock and the log. -/
theorem FromInv.plain (hI : FromInv clm lead g v H) (hv : v i = some (op, .inl s)) (ha : act (.inl s : Pt K E ⊕ Res E) = act x) (e1 : g'.flight = g.flight)
    (e2 : g'.fin = g.fin) (e3 : g'.next = g.next) (h5 : ∀ k t, .created k t ∈ g'.log → .created k t ∈ g.log ∨ Ended clm v i k none)
    (h7 : fromX clm lead (fun j => ¬ Before H j i) (SrcOf clm v H i) i op x) : FromInv clm lead g' (Conc.upd v i (some (op, x))) H :=
  hI.step hv (fun _ _ h => h) (fun t y h => e3 ▸ hI.lt t y h) (fun k t h => .inl ⟨e1 ▸ h, fun h' => ha ▸ h'⟩) (fun t k j e h h' => .inl ⟨h, e2 ▸ h'⟩)
    (fun t h => by rw [e2]; exact hI.unfin t (e3 ▸ h)) h5 h7

theorem removal_log (g : G K E) (k : K) : ∀ k' t, .created k' t ∈ (removal g k).1.log → .created k' t ∈ g.log := by
  unfold removal
  split
  · simp
  · split <;> simp

/-- A step that calls `Remove`. -/
theorem FromInv.removes (hI : FromInv clm lead g v H) (hv : v i = some (op, .inl s)) (ha : act (.inl s : Pt K E ⊕ Res E) = act x) (k : K)
    (h7 : fromX clm lead (fun j => ¬ Before H j i) (SrcOf clm v H i) i op x) : FromInv clm lead (removal g k).1 (Conc.upd v i (some (op, x))) H := by
  obtain ⟨-, e1, e2, e3, -⟩ := removal_same g k
  exact hI.plain hv ha e1 e2 e3 (fun k' t h => .inl (removal_log g k k' t h)) h7

theorem fromInv_step {c : Nat} (hI : FromInv clm lead g v H) (hv : v i = some (op, .inl s)) (hs : ResManNest.step clm g i op s c = some (g', x)) :
    ∃ lead', FromInv clm lead' g' (Conc.upd v i (some (op, x))) H := by
  have hg := hI.good i op _ hv
  have now : ∀ l, ¬ Before H i l := by
    rintro l ⟨H₁, H₂, r, o', rfl, b1, -⟩
    obtain ⟨o'', b2⟩ := hI.rets i r (List.mem_append_left _ b1)
    rw [hv] at b2
    simp at b2
  have c1 : ∀ k t, .created k t ∈ g.log → .created k t ∈ g.log ∨ Ended clm v i k none := fun _ _ h => .inl h
  cases s with
  | frame k p u =>
    obtain ⟨h1, h2, h3⟩ := hg
    cases p with
    | start cr =>
      simp only [ResManNest.step, frameStep] at hs
      split at hs <;> simp only [Option.some.injEq, Prod.mk.injEq] at hs <;> obtain ⟨rfl, rfl⟩ := hs
      · rename_i t ht
        obtain ⟨j, op', y, a1, a2, a3⟩ := hI.flight k t ht
        refine ⟨lead, hI.plain hv rfl rfl rfl rfl c1 ⟨h1, h2, j, a1, ?_⟩⟩
        rintro ⟨H₁, H₂, r, o', rfl, b1, -⟩
        obtain ⟨o'', b2⟩ := hI.rets j r (List.mem_append_left _ b1)
        rw [a2] at b2
        simp only [Option.some.injEq, Prod.mk.injEq] at b2
        rw [b2.2] at a3
        simp [act] at a3
      · have hm : ∀ t y, lead t = some y → Conc.upd lead g.next (some (k, i)) t = some y := by
          intro t y ht
          rw [upd_ne]; · exact ht
          rintro rfl; exact absurd (hI.lt _ _ ht) (Nat.lt_irrefl _)
        refine ⟨Conc.upd lead g.next (some (k, i)), hI.step hv hm ?_ ?_ ?_ (fun t ht => hI.unfin t (Nat.le_of_succ_le ht)) c1
          ⟨h1, h2.mono hm, by simp, h3⟩⟩
        · intro t y ht
          by_cases e : t = g.next
          · subst e; exact Nat.lt_succ_self _
          · rw [upd_ne _ _ e] at ht; exact Nat.lt_succ_of_lt (hI.lt _ _ ht)
        · intro k' t ht
          simp only at ht
          split at ht
          · rename_i e
            simp only [Option.some.injEq] at ht
            subst ht e
            exact .inr ⟨by simp, by simp [act]⟩
          · exact .inl ⟨ht, fun h => by simp only [act] at h ⊢; exact List.mem_cons_of_mem _ h⟩
        · intro t k' j e ht hf
          by_cases e : t = g.next
          · subst e; simp [hI.unfin _ (Nat.le_refl _)] at hf
          · rw [upd_ne _ _ e] at ht; exact .inl ⟨ht, hf⟩
    | wait t =>
      simp only [ResManNest.step, frameStep] at hs
      split at hs <;> simp only [Option.some.injEq, Prod.mk.injEq, reduceCtorEq] at hs
      obtain ⟨rfl, rfl⟩ := hs
      rename_i o ho
      obtain ⟨j, a1, a2⟩ := h3
      exact ⟨lead, hI.plain hv (by rw [act_leave]; rfl) rfl rfl rfl c1 (from_leave h1 h2 fun e he => ⟨j, hI.fin t k j e a1 (by rw [ho, he]), a2, now j⟩)⟩
    | lookup t cr =>
      simp only [ResManNest.step, frameStep] at hs
      split at hs
      · simp at hs
      · split at hs <;> simp only [Option.some.injEq, Prod.mk.injEq] at hs <;> obtain ⟨rfl, rfl⟩ := hs
        · exact ⟨lead, hI.plain hv rfl rfl rfl rfl c1 ⟨h1, h2, h3.1, by simp⟩⟩
        · exact ⟨lead, hI.plain hv rfl rfl rfl rfl c1 ⟨h1, h2, h3.1, cr, h3.2, .refl _⟩⟩
    | creating t p =>
      obtain ⟨h3, cr, h4, h5⟩ := h3
      cases p with
      | ret e =>
        cases e <;> simp only [ResManNest.step, frameStep, Option.some.injEq, Prod.mk.injEq] at hs <;> obtain ⟨rfl, rfl⟩ := hs
        · refine ⟨lead, hI.plain hv rfl rfl rfl rfl ?_ ⟨h1, h2, h3⟩⟩
          intro k' t' ht
          simp only [List.mem_append, List.mem_singleton, LogEv.created.injEq] at ht
          rcases ht with ht | ⟨rfl, rfl⟩
          · exact .inl ht
          · exact .inr ⟨op, _, cr, hv, h4, h5⟩
        · refine ⟨lead, hI.plain hv rfl rfl rfl rfl c1 ⟨h1, h2, h3, ?_⟩⟩
          rintro e ⟨⟩
          exact ⟨cr, h4, h5⟩
      | get k' cr' f =>
        simp only [ResManNest.step, frameStep, Option.some.injEq, Prod.mk.injEq] at hs
        obtain ⟨rfl, rfl⟩ := hs
        exact ⟨lead, hI.plain hv rfl rfl rfl rfl c1 ⟨h1, ⟨h3, ⟨cr, h4, fun o => h5.trans (.get _ _ _ o _ (.refl _))⟩, h2⟩, .nested op k k' cr cr' f h4 h5⟩⟩
      | remove k' f =>
        simp only [ResManNest.step, frameStep] at hs
        split at hs
        · simp at hs
        · simp only [Option.some.injEq, Prod.mk.injEq] at hs
          obtain ⟨rfl, rfl⟩ := hs
          exact ⟨lead, hI.removes hv (by rfl) k' ⟨h1, h2, h3, cr, h4, h5.trans (.remove _ _ _ _ (.refl _))⟩⟩
    | store t =>
      simp only [ResManNest.step, frameStep] at hs
      split at hs
      · simp at hs
      · split at hs <;> simp only [Option.some.injEq, Prod.mk.injEq] at hs <;> obtain ⟨rfl, rfl⟩ := hs
        · exact ⟨lead, hI.plain hv rfl rfl rfl rfl c1 ⟨h1, h2, h3, by simp⟩⟩
        · refine ⟨lead, hI.plain hv rfl rfl rfl rfl ?_ ⟨h1, h2, h3, by simp⟩⟩
          intro k' t' ht
          simp only [List.mem_append, List.mem_singleton, reduceCtorEq, or_false] at ht
          exact .inl ht
    | finish t o =>
      simp only [ResManNest.step, frameStep, Option.some.injEq, Prod.mk.injEq] at hs
      obtain ⟨rfl, rfl⟩ := hs
      refine ⟨lead, hI.step hv (fun _ _ h => h) hI.lt (fun k t h => .inl ⟨h, fun h' => h'⟩) ?_ ?_ c1 ⟨h1, h2, h3⟩⟩
      · intro t' k' j e hk hf
        by_cases e' : t' = t
        · subst e'
          simp only [upd_same, Option.some.injEq] at hf
          rw [h3.1, Option.some.injEq, Prod.mk.injEq] at hk
          obtain ⟨rfl, rfl⟩ := hk
          obtain ⟨c, a, b⟩ := h3.2 e hf
          exact .inr ⟨op, _, c, hv, a, b⟩
        · simp only [upd_ne _ _ e'] at hf; exact .inl ⟨hk, hf⟩
      · intro t' ht
        have : t' ≠ t := by rintro rfl; exact absurd (hI.lt _ _ h3.1) (Nat.not_lt.2 ht)
        simp only [upd_ne _ _ this]; exact hI.unfin t' ht
    | drop t o =>
      simp only [ResManNest.step, frameStep, Option.some.injEq, Prod.mk.injEq] at hs
      obtain ⟨rfl, rfl⟩ := hs
      refine ⟨lead, hI.step hv (fun _ _ h => h) hI.lt ?_ (fun t k j e h h' => .inl ⟨h, h'⟩) hI.unfin c1 (from_leave h1 h2 ?_)⟩
      · intro k' t' ht
        simp only at ht
        split at ht
        · simp at ht
        · rename_i hk
          refine .inl ⟨ht, fun h => ?_⟩
          rw [act_leave]
          simp only [act, List.mem_cons, Prod.mk.injEq] at h
          exact h.resolve_left fun h => hk h.1
      · intro e he
        obtain ⟨c, a, b⟩ := h3.2 e he
        exact ⟨i, ⟨op, _, c, hv, a, b⟩, now i, now i⟩
  | remove k =>
    simp only [ResManNest.step] at hs
    split at hs
    · simp at hs
    · simp only [Option.some.injEq, Prod.mk.injEq] at hs
      obtain ⟨rfl, rfl⟩ := hs
      exact ⟨lead, hI.removes hv (by rfl) k trivial⟩
  | lock =>
    simp only [ResManNest.step] at hs
    split at hs
    · simp at hs
    · simp only [Option.some.injEq, Prod.mk.injEq] at hs
      obtain ⟨rfl, rfl⟩ := hs
      exact ⟨lead, hI.plain hv rfl rfl rfl rfl c1 hg⟩
  | closing todo =>
    cases todo with
    | nil =>
      simp only [ResManNest.step, Option.some.injEq, Prod.mk.injEq] at hs
      obtain ⟨rfl, rfl⟩ := hs
      exact ⟨lead, hI.plain hv rfl rfl rfl rfl c1 trivial⟩
    | cons a l =>
      simp only [ResManNest.step] at hs
      split at hs <;> simp only [Option.some.injEq, Prod.mk.injEq, reduceCtorEq] at hs
      obtain ⟨rfl, rfl⟩ := hs
      exact ⟨lead, hI.plain hv rfl rfl rfl rfl c1 ⟨hg, _, .refl _⟩⟩
  | method todo p =>
    obtain ⟨ho, r, hr⟩ := hg
    cases p with
    | ret e =>
      simp only [ResManNest.step, Option.some.injEq, Prod.mk.injEq] at hs
      obtain ⟨rfl, rfl⟩ := hs
      exact ⟨lead, hI.plain hv rfl rfl rfl rfl c1 ho⟩
    | get k cr f =>
      simp only [ResManNest.step, Option.some.injEq, Prod.mk.injEq] at hs
      obtain ⟨rfl, rfl⟩ := hs
      exact ⟨lead, hI.plain hv rfl rfl rfl rfl c1
        ⟨by simp [Under.base], ⟨ho, r, fun o => hr.trans (.get _ _ _ o _ (.refl _))⟩, by rw [ho]; exact .method r k cr f hr⟩⟩
    | remove k f =>
      simp only [ResManNest.step] at hs
      split at hs
      · simp at hs
      · simp only [Option.some.injEq, Prod.mk.injEq] at hs
        obtain ⟨rfl, rfl⟩ := hs
        exact ⟨lead, hI.removes hv (by rfl) k ⟨ho, r, hr.trans (.remove _ _ _ _ (.refl _))⟩⟩

theorem fromInv_exec {m : Conf (G K E) (Op K E) (Res E) (Pt K E)} (h : (prog clm).mach.Exec m H) : ∃ lead, FromInv clm lead m.g m.view H := by
  refine (prog clm).induct (fun g v H => ∃ lead, FromInv clm lead g v H) ?_ ?_ ?_ ?_ h
  · refine ⟨fun _ => none, ?_⟩
    constructor <;> simp [prog, new]
  · rintro g v H i op ⟨lead, hI⟩ hv
    have keep : ∀ j k e, Ended clm v j k e → Ended clm (Conc.upd v i (some (op, .inl ((prog clm).begin op)))) j k e := by
      rintro j k e ⟨op', y, c, a, b⟩
      have hj : j ≠ i := by rintro rfl; rw [hv] at a; simp at a
      exact ⟨op', y, c, by rw [upd_ne _ _ hj]; exact a, b⟩
    have old : ∀ j k e, Ended clm v j k e → j ≠ i := by
      rintro j k e ⟨op', y, c, a, b⟩ rfl
      rw [hv] at a; simp at a
    have nb : ∀ j b, b ≠ i → ¬ Before H j b → ¬ Before (H ++ [.inv i op]) j b := by
      intro j b hb h1 h2
      rcases before_append h2 with h3 | ⟨o, r, h3, -⟩
      · exact h1 h3
      · simp only [Ev.inv.injEq] at h3; exact hb h3.1.symm
    refine ⟨lead, hI.lt, ?_, fun t k j e a b => keep _ _ _ (hI.fin t k j e a b), hI.unfin, ?_, ?_, ?_⟩
    · intro k t ht
      obtain ⟨j, op', y, a, b, c⟩ := hI.flight k t ht
      have hj : j ≠ i := by rintro rfl; rw [hv] at b; simp at b
      exact ⟨j, op', y, a, by rw [upd_ne _ _ hj]; exact b, c⟩
    · intro k t ht
      obtain ⟨j, a⟩ := hI.made k t ht; exact ⟨j, keep _ _ _ a⟩
    · intro j r hr
      simp only [List.mem_append, List.mem_singleton, reduceCtorEq, or_false] at hr
      obtain ⟨op', a⟩ := hI.rets j r hr
      have hj : j ≠ i := by rintro rfl; rw [hv] at a; simp at a
      exact ⟨op', by rw [upd_ne _ _ hj]; exact a⟩
    · intro j op' y hj
      by_cases hji : j = i
      · subst hji
        simp only [upd_same, Option.some.injEq, Prod.mk.injEq] at hj
        obtain ⟨rfl, rfl⟩ := hj
        cases op with
        | get k cr => exact ⟨by rintro k' ⟨⟩; exact ⟨cr, rfl⟩, trivial, .call k cr⟩
        | remove k => trivial
        | close => rfl
      · rw [upd_ne _ _ hji] at hj
        exact from_mono (fun _ _ h => h) (fun l => nb l j hji) (fun k e ⟨l, a, b, d⟩ => ⟨l, keep _ _ _ a, nb l j hji b, nb j l (old l k _ a) d⟩) (hI.good j op' y hj)
  · rintro g v H i op s c g' x ⟨lead, hI⟩ hv hs
    exact fromInv_step hI hv hs
  · rintro g v H i op r ⟨lead, hI⟩ hv
    have nb : ∀ j b, ¬ Before H j b → ¬ Before (H ++ [.ret i r]) j b := by
      intro j b h1 h2
      rcases before_append h2 with h3 | ⟨o, r, h3, -⟩
      · exact h1 h3
      · simp at h3
    refine ⟨lead, hI.lt, hI.flight, hI.fin, hI.unfin, hI.made, ?_, fun j op' y hj =>
      from_mono (fun _ _ h => h) (fun l => nb l j) (fun k e ⟨l, a, b, d⟩ => ⟨l, a, nb l j b, nb j l d⟩) (hI.good j op' y hj)⟩
    intro j r' hr
    simp only [List.mem_append, List.mem_singleton, Ev.ret.injEq] at hr
    rcases hr with hr | ⟨rfl, rfl⟩
    · exact hI.rets j r' hr
    · exact ⟨op, hv⟩

/-- **C143.** An error (or panic) that `Get(k, …)` returns is one that a create function can end with that was passed to a `Get(k, …)` for the same key, in a
call (possibly this one) that overlaps this one: neither has returned before the other began. -/
theorem C143_failed {m : Conf (G K E) (Op K E) (Res E) (Pt K E)} (h : (prog clm).mach.Exec m H) {k : K} {create : Tree K E} {e : E}
    (hi : Ev.inv i (.get k create) ∈ H) (hr : Ev.ret i (.get (.failed e)) ∈ H) :
    ∃ l op c, Ev.inv l op ∈ H ∧ Given clm op k c ∧ c.Later (.ret (some e)) ∧ ¬ Before H l i ∧ ¬ Before H i l := by
  obtain ⟨lead, hI⟩ := fromInv_exec h
  obtain ⟨k', cr, a, l, ⟨op, x, c, b1, b2, b3⟩, b4⟩ := hI.good i _ _ ((prog clm).ret_view h hi hr)
  cases a
  exact ⟨l, op, c, ((prog clm).hist h).1 l op |>.2 ⟨x, b1⟩, b2, b3, b4⟩

/-- **C143.** `Get(k, …)` returns a resource only if a create function that can succeed has been passed to a `Get(k, …)` for the same key. -/
theorem C143_got {m : Conf (G K E) (Op K E) (Res E) (Pt K E)} (h : (prog clm).mach.Exec m H) {k : K} {create : Tree K E} {r : Nat}
    (hi : Ev.inv i (.get k create) ∈ H) (hr : Ev.ret i (.get (.got r)) ∈ H) :
    ∃ l op c, Ev.inv l op ∈ H ∧ Given clm op k c ∧ c.Later (.ret none) := by
  obtain ⟨lead, hI⟩ := fromInv_exec h
  obtain ⟨l, op, x, c, b1, b2, b3⟩ := hI.made k r (C114_got h hi hr)
  exact ⟨l, op, c, ((prog clm).hist h).1 l op |>.2 ⟨x, b1⟩, b2, b3⟩

end

/-! ## Runs -/

/-- A create function that gets `false` with a create function that panics with 7, recovers that, and succeeds. -/
def recovers : Tree Bool (Unit ⊕ Nat) := .get false (.ret (some (.inr 7))) fun _ => .ret none

/-- Call 1 gets `false` meanwhile, with a create function that would succeed; it shares the nested create and panics, and call 0 does not. -/
theorem demoFrom : ∃ m, (prog (fun _ => .ret none) : Prog (G Bool (Unit ⊕ Nat)) _ _ _).mach.Exec m
    [.inv 0 (.get true recovers), .inv 1 (.get false (.ret none)), .ret 0 (.get (.got 0)), .ret 1 (.get (.failed (.inr 7)))] ∧
    m.g.log = [.created true 0, .stored true 0] :=
  Mach.exists_exec_state _ [.inv 0 (.get true recovers), .run 0, .run 0, .run 0, .run 0, .inv 1 (.get false (.ret none)), .run 1, .run 0, .run 0,
    .run 0, .run 0, .run 0, .run 0, .run 0, .run 0, .run 0, .run 1, .run 1] _ _ (by exact And.intro rfl rfl)

example := demoFrom.imp fun _ h => C143_failed (i := 1) (k := false) (create := .ret none) (e := .inr 7) h.1 (by simp) (by simp)

example := demoFrom.imp fun _ h => C143_got (i := 0) (k := true) (create := recovers) (r := 0) h.1 (by simp) (by simp)

/-- The only create function in this run that ends with the panic is the nested one. -/
example : Given (fun _ => .ret none) (.get true recovers) false (.ret (some (.inr 7))) :=
  .nested _ true false recovers _ _ (.call _ _) (.refl _)

end Verif.XSync.ResManNest

import Mathlib.Data.List.Perm.Basic
import Verif.XSync.ResMan
import Mathlib.Data.List.Nodup
import Mathlib.Tactic.Common
/-! # Invariant of the resource manager -/
namespace Verif.XSync.ResMan
open Verif.Conc Verif.XError

variable {K E : Type} [DecidableEq K]

/-- The points of a leader. -/
def Pt.lead : Pt K E → Bool
  | .lookup | .create | .store | .finish _ | .drop _ => true
  | _ => false

/-- The outcome a call carries. -/
def carries : Pt K E ⊕ Res' E → Option (Outcome E)
  | .inl (.finish o) | .inl (.drop o) | .inr (.get o) => some o
  | _ => none

theorem held_append (k : K) (l : List (LogEv K)) (e : LogEv K) : held k (l ++ [e]) = match e with
    | .stored k' r => if k' = k then some r else held k l
    | .removed k' _ => if k' = k then none else held k l
    | _ => held k l := by
  simp only [held, List.foldl_append, List.foldl_cons, List.foldl_nil]
  cases e <;> rfl

theorem find_erase (l : List (K × Nat)) (k k' : K) : find (erase l k) k' = if k' = k then none else find l k' := by
  induction l with
  | nil => simp [erase, find]
  | cons x l ih =>
    obtain ⟨a, r⟩ := x
    simp only [erase] at ih
    by_cases ha : a = k
    · simp only [erase, List.filter_cons, ha, ne_eq, not_true_eq_false, decide_false, Bool.false_eq_true, if_false, ih, find]
      by_cases hk : k' = k
      · simp [hk]
      · simp [hk, Ne.symm hk]
    · simp only [erase, List.filter_cons, ne_eq, ha, not_false_eq_true, decide_true, if_true, find, ih]
      by_cases hk : k' = k
      · subst hk; simp [ha]
      · simp [hk]

theorem find_insert (l : List (K × Nat)) (k k' : K) (r : Nat) : find (insert l k r) k' = if k' = k then some r else find l k' := by
  simp only [insert, find, find_erase]
  by_cases hk : k' = k
  · simp [hk]
  · simp [hk, Ne.symm hk]

theorem find_mem {l : List (K × Nat)} {k : K} {r : Nat} (h : find l k = some r) : (k, r) ∈ l := by
  induction l with
  | nil => simp [find] at h
  | cons x l ih =>
    obtain ⟨a, b⟩ := x
    simp only [find] at h
    by_cases ha : a = k
    · simp only [ha, if_true, Option.some.injEq] at h; subst h ha; simp
    · simp only [ha, if_false] at h; exact List.mem_cons_of_mem _ (ih h)

theorem find_of_mem {l : List (K × Nat)} (hn : (l.map (·.1)).Nodup) {k : K} {r : Nat} (h : (k, r) ∈ l) : find l k = some r := by
  induction l with
  | nil => simp at h
  | cons x l ih =>
    obtain ⟨a, b⟩ := x
    simp only [List.map_cons, List.nodup_cons] at hn
    simp only [List.mem_cons, Prod.mk.injEq] at h
    rcases h with ⟨rfl, rfl⟩ | h
    · simp [find]
    · have : a ≠ k := fun e => hn.1 (by subst e; exact List.mem_map.2 ⟨_, h, rfl⟩)
      simp only [find, this, if_false]
      exact ih hn.2 h

theorem nodup_erase {l : List (K × Nat)} (hn : (l.map (·.1)).Nodup) (k : K) : ((erase l k).map (·.1)).Nodup :=
  hn.sublist (List.filter_sublist.map _)

theorem nodup_insert {l : List (K × Nat)} (hn : (l.map (·.1)).Nodup) (k : K) (r : Nat) : ((insert l k r).map (·.1)).Nodup := by
  simp only [insert, List.map_cons, List.nodup_cons]
  refine ⟨?_, nodup_erase hn k⟩
  intro h
  obtain ⟨x, hx, e⟩ := List.mem_map.1 h
  simp [erase] at hx
  exact hx.2 e

/-- What an outcome of a `Get` for the key `k` stems from. -/
def OK (g : G K E) (v : View (Op K E) (Res' E) (Pt K E)) (k : K) : Outcome E → Prop
  | .got r => LogEv.stored k r ∈ g.log
  | .failed e => ∃ l x, v l = some (.get k (some e), x)
  | .panic => g.res = none

/-- Proof only: part of an invariant or simulation; models no code. -/
structure Inv (cerr : Nat → Option E) (g : G K E) (v : View (Op K E) (Res' E) (Pt K E)) : Prop where
  leader : ∀ k l, g.flight k = some l ↔ ∃ f s, v l = some (.get k f, .inl s) ∧ s.lead = true
  finView : ∀ l o, g.fin l = some o → ∃ k f x, v l = some (.get k f, x) ∧ (x = .inl (.drop o) ∨ x = .inr (.get o))
  dropFin : ∀ l k f o, v l = some (.get k f, .inl (.drop o)) → g.fin l = some o
  wait : ∀ i k f l, v i = some (.get k f, .inl (.wait l)) → (∃ f' x, v l = some (.get k f', x)) ∧ (g.fin l = none → g.flight k = some l)
  carry : ∀ i k f x o, v i = some (.get k f, x) → carries x = some o → OK g v k o
  create : ∀ i k f l, (v i = some (.get k f, .inl .create) ∨ v i = some (.get k f, .inl .store)) → g.res = some l → find l k = none
  store : ∀ i k f, v i = some (.get k f, .inl .store) → f = none ∧ LogEv.created k i ∈ g.log
  storedView : ∀ k r, LogEv.stored k r ∈ g.log → ∃ x, v r = some (.get k none, x) ∧ x ≠ .inl .store ∧ x ≠ .inl .create ∧ x ≠ .inl .lookup ∧ x ≠ .inl .start
  createdView : ∀ k r, LogEv.created k r ∈ g.log → ∃ x, v r = some (.get k none, x) ∧ x ≠ .inl .create ∧ x ≠ .inl .lookup ∧ x ≠ .inl .start
  keys : ∀ l, g.res = some l → (l.map (·.1)).Nodup
  findEq : ∀ l k, g.res = some l → find l k = held k g.log
  alt : ∀ l k i l₁ l₂, g.res = some l → g.log = l₁ ++ .created k i :: l₂ → (∀ r, LogEv.removed k r ∉ l₂) →
    find l k = some i ∨ v i = some (.get k none, .inl .store)
  pairs : ∀ k i j l₁ l₂ l₃, g.res ≠ none → g.log = l₁ ++ .created k i :: (l₂ ++ .created k j :: l₃) → ∃ r, LogEv.removed k r ∈ l₂
  heldStored : ∀ k r, held k g.log = some r → LogEv.stored k r ∈ g.log
  closing : ∀ i todo be, v i = some (.close, .inl (.closing todo be)) → g.wlock = some i ∧ g.res.getD [] = g.heldAt i ∧
    (g.closedBy i ++ todo.map (·.2)).Perm ((g.heldAt i).map (·.2)) ∧ be = addAll .zero ((g.closedBy i).map cerr) ∧
    (g.res ≠ none → closedLog g.log = g.closedBy i)
  closed : ∀ i r, v i = some (.close, .inr r) → r = .closed (addAll .zero ((g.closedBy i).map cerr)).err ∧
    (g.closedBy i).Perm ((g.heldAt i).map (·.2))
  locked : ∀ i, g.wlock = some i → (∃ todo be, v i = some (.close, .inl (.closing todo be))) ∨ g.res = none
  open' : g.res ≠ none → g.wlock = none → closedLog g.log = []
  nodupClosed : (closedLog g.log).Nodup
  resNone : g.res = none → ∃ j r, v j = some (.close, .inr r)
  exact : ∀ i x, v i = some (.close, x) → x ≠ .inl .lock →
    (∃ j r, j ≠ i ∧ v j = some (.close, .inr r)) ∨ ∀ k r, (k, r) ∈ g.heldAt i ↔ held k (g.logAt i) = some r
  fresh : ∀ i, (v i = none ∨ v i = some (.close, .inl .lock)) → g.closedBy i = [] ∧ g.heldAt i = []

theorem upd_facts {v v' : View (Op K E) (Res' E) (Pt K E)} {i : Nat} {z : Option (Op K E × (Pt K E ⊕ Res' E))} (h : upd v i z = v') :
    v' i = z ∧ (∀ j, j ≠ i → v' j = v j) ∧ ∀ j y, v j = some y → j = i ∨ v' j = some y := by
  subst h
  refine ⟨upd_same _ _ _, fun j hj => upd_ne _ _ hj, fun j y hy => ?_⟩
  by_cases hj : j = i
  · exact Or.inl hj
  · right; rw [upd_ne _ _ hj]; exact hy

theorem inv_init (cerr : Nat → Option E) : Inv cerr (new : G K E) (fun _ => none) := by
  constructor <;> simp [new, held, closedLog]
  rintro l k rfl; rfl

theorem inv_inv {cerr : Nat → Option E} {g : G K E} {v : View (Op K E) (Res' E) (Pt K E)} (h : Inv cerr g v) (i : Nat) (op : Op K E)
    (hv : v i = none) : Inv cerr g (upd v i (some (op, .inl ((prog cerr).begin op)))) := by
  obtain ⟨a1, a2, a3, a4, a5, a6, a7, a8, a9, a10, a11, a12, a13, a14, a15, a16, a17, a18, a19, a20, a21, a22⟩ := h
  cases op with
  | get k f =>
    show Inv cerr g (upd v i (some (.get k f, .inl .start)))
    generalize hv' : upd v i _ = v'
    obtain ⟨u1, u2, u3⟩ := upd_facts hv'
    clear hv'
    constructor
    · clear * - hv u1 u2 u3 a1; grind [Pt.lead]
    · clear * - hv u1 u2 u3 a2; grind [Pt.lead]
    · clear * - hv u1 u2 u3 a3; grind [Pt.lead]
    · clear * - hv u1 u2 u3 a1 a2 a3 a4; grind [Pt.lead]
    · clear * - hv u1 u2 u3 a2 a4 a5
      intro j k' f' x' o hj hc
      have := a5 j k' f' x' o
      cases o <;> simp only [OK] at this a5 ⊢ <;> grind [carries]
    · clear * - hv u1 u2 u3 a1 a6; grind [Pt.lead]
    · clear * - hv u1 u2 u3 a7; grind [Pt.lead]
    · clear * - hv u1 u2 u3 a8; grind [Pt.lead]
    · clear * - hv u1 u2 u3 a9; grind [Pt.lead]
    · clear * - hv u1 u2 u3 a10; grind [Pt.lead]
    · clear * - hv u1 u2 u3 a11; grind [Pt.lead]
    · clear * - hv u1 u2 u3 a12; grind [Pt.lead]
    · clear * - hv u1 u2 u3 a13; grind [Pt.lead]
    · clear * - hv u1 u2 u3 a14; grind [Pt.lead]
    · clear * - hv u1 u2 u3 a15 a17; grind [Pt.lead]
    · clear * - hv u1 u2 u3 a16; grind [Pt.lead]
    · clear * - hv u1 u2 u3 a17; grind [Pt.lead]
    · clear * - hv u1 u2 u3 a18 a17; grind [Pt.lead]
    · clear * - hv u1 u2 u3 a19; grind [Pt.lead]
    · clear * - hv u1 u2 u3 a20; grind [Pt.lead]
    · clear * - hv u1 u2 u3 a21; grind [Pt.lead]
    · clear * - hv u1 u2 u3 a22; grind [Pt.lead]
  | remove k =>
    show Inv cerr g (upd v i (some (.remove k, .inl .remove)))
    generalize hv' : upd v i _ = v'
    obtain ⟨u1, u2, u3⟩ := upd_facts hv'
    clear hv'
    constructor
    · clear * - hv u1 u2 u3 a1; grind [Pt.lead]
    · clear * - hv u1 u2 u3 a2; grind [Pt.lead]
    · clear * - hv u1 u2 u3 a3; grind [Pt.lead]
    · clear * - hv u1 u2 u3 a1 a2 a3 a4; grind [Pt.lead]
    · clear * - hv u1 u2 u3 a2 a4 a5
      intro j k' f' x' o hj hc
      have := a5 j k' f' x' o
      cases o <;> simp only [OK] at this a5 ⊢ <;> grind [carries]
    · clear * - hv u1 u2 u3 a1 a6; grind [Pt.lead]
    · clear * - hv u1 u2 u3 a7; grind [Pt.lead]
    · clear * - hv u1 u2 u3 a8; grind [Pt.lead]
    · clear * - hv u1 u2 u3 a9; grind [Pt.lead]
    · clear * - hv u1 u2 u3 a10; grind [Pt.lead]
    · clear * - hv u1 u2 u3 a11; grind [Pt.lead]
    · clear * - hv u1 u2 u3 a12; grind [Pt.lead]
    · clear * - hv u1 u2 u3 a13; grind [Pt.lead]
    · clear * - hv u1 u2 u3 a14; grind [Pt.lead]
    · clear * - hv u1 u2 u3 a15 a17; grind [Pt.lead]
    · clear * - hv u1 u2 u3 a16; grind [Pt.lead]
    · clear * - hv u1 u2 u3 a17; grind [Pt.lead]
    · clear * - hv u1 u2 u3 a18 a17; grind [Pt.lead]
    · clear * - hv u1 u2 u3 a19; grind [Pt.lead]
    · clear * - hv u1 u2 u3 a20; grind [Pt.lead]
    · clear * - hv u1 u2 u3 a21; grind [Pt.lead]
    · clear * - hv u1 u2 u3 a22; grind [Pt.lead]
  | close =>
    show Inv cerr g (upd v i (some (.close, .inl .lock)))
    generalize hv' : upd v i _ = v'
    obtain ⟨u1, u2, u3⟩ := upd_facts hv'
    clear hv'
    constructor
    · clear * - hv u1 u2 u3 a1; grind [Pt.lead]
    · clear * - hv u1 u2 u3 a2; grind [Pt.lead]
    · clear * - hv u1 u2 u3 a3; grind [Pt.lead]
    · clear * - hv u1 u2 u3 a1 a2 a3 a4; grind [Pt.lead]
    · clear * - hv u1 u2 u3 a2 a4 a5
      intro j k' f' x' o hj hc
      have := a5 j k' f' x' o
      cases o <;> simp only [OK] at this a5 ⊢ <;> grind [carries]
    · clear * - hv u1 u2 u3 a1 a6; grind [Pt.lead]
    · clear * - hv u1 u2 u3 a7; grind [Pt.lead]
    · clear * - hv u1 u2 u3 a8; grind [Pt.lead]
    · clear * - hv u1 u2 u3 a9; grind [Pt.lead]
    · clear * - hv u1 u2 u3 a10; grind [Pt.lead]
    · clear * - hv u1 u2 u3 a11; grind [Pt.lead]
    · clear * - hv u1 u2 u3 a12; grind [Pt.lead]
    · clear * - hv u1 u2 u3 a13; grind [Pt.lead]
    · clear * - hv u1 u2 u3 a14; grind [Pt.lead]
    · clear * - hv u1 u2 u3 a15 a17; grind [Pt.lead]
    · clear * - hv u1 u2 u3 a16; grind [Pt.lead]
    · clear * - hv u1 u2 u3 a17; grind [Pt.lead]
    · clear * - hv u1 u2 u3 a18 a17; grind [Pt.lead]
    · clear * - hv u1 u2 u3 a19; grind [Pt.lead]
    · clear * - hv u1 u2 u3 a20; grind [Pt.lead]
    · clear * - hv u1 u2 u3 a21; grind [Pt.lead]
    · clear * - hv u1 u2 u3 a22; grind [Pt.lead]

theorem closedLog_append (l : List (LogEv K)) (e : LogEv K) : closedLog (l ++ [e]) = closedLog l ++ (match e with | .closed r => [r] | _ => []) := by
  simp only [closedLog, List.filterMap_append, List.filterMap_cons, List.filterMap_nil]
  cases e <;> rfl

theorem snoc_split {γ : Type} {l l₁ l₂ : List γ} {a e : γ} (h : l ++ [e] = l₁ ++ a :: l₂) :
    (l₂ = [] ∧ l₁ = l ∧ a = e) ∨ ∃ l₂', l₂ = l₂' ++ [e] ∧ l = l₁ ++ a :: l₂' := by
  rcases List.eq_nil_or_concat l₂ with rfl | ⟨l₂', b, rfl⟩
  · have := List.append_inj' h rfl
    simp at this
    exact Or.inl ⟨rfl, this.1.symm, this.2.symm⟩
  · right
    rw [List.concat_eq_append, ← List.cons_append, ← List.append_assoc] at h
    have := List.append_inj' h rfl
    simp at this
    exact ⟨l₂', by simp [this.2], this.1⟩

theorem start_join {cerr : Nat → Option E} {g : G K E} {v : View (Op K E) (Res' E) (Pt K E)} (h : Inv cerr g v) {i : Nat} {k : K} {f : Option E}
    (hv : v i = some (.get k f, .inl .start)) {l : Nat} (hl : g.flight k = some l) :
    Inv cerr g (upd v i (some (.get k f, .inl (.wait l)))) := by
  obtain ⟨a1, a2, a3, a4, a5, a6, a7, a8, a9, a10, a11, a12, a13, a14, a15, a16, a17, a18, a19, a20, a21, a22⟩ := h
  generalize hv' : upd v i _ = v'
  obtain ⟨u1, u2, u3⟩ := upd_facts hv'
  clear hv'
  constructor
  · clear * - hv hl u1 u2 u3 a1; grind [Pt.lead]
  · clear * - hv hl u1 u2 u3 a2; grind [Pt.lead]
  · clear * - hv hl u1 u2 u3 a3; grind [Pt.lead]
  · clear * - hv hl u1 u2 u3 a1 a2 a3 a4; grind [Pt.lead]
  · clear * - hv hl u1 u2 u3 a2 a4 a5
    intro j k' f' x' o hj hc
    have := a5 j k' f' x' o
    cases o <;> simp only [OK] at this a5 ⊢ <;> grind [carries]
  · clear * - hv hl u1 u2 u3 a1 a6; grind [Pt.lead]
  · clear * - hv hl u1 u2 u3 a7; grind [Pt.lead]
  · clear * - hv hl u1 u2 u3 a8; grind [Pt.lead]
  · clear * - hv hl u1 u2 u3 a9; grind [Pt.lead]
  · clear * - hv hl u1 u2 u3 a10; grind [Pt.lead]
  · clear * - hv hl u1 u2 u3 a11; grind [Pt.lead]
  · clear * - hv hl u1 u2 u3 a12; grind [Pt.lead]
  · clear * - hv hl u1 u2 u3 a13; grind [Pt.lead]
  · clear * - hv hl u1 u2 u3 a14; grind [Pt.lead]
  · clear * - hv hl u1 u2 u3 a15 a17; grind [Pt.lead]
  · clear * - hv hl u1 u2 u3 a16; grind [Pt.lead]
  · clear * - hv hl u1 u2 u3 a17; grind [Pt.lead]
  · clear * - hv hl u1 u2 u3 a18 a17; grind [Pt.lead]
  · clear * - hv hl u1 u2 u3 a19; grind [Pt.lead]
  · clear * - hv hl u1 u2 u3 a20; grind [Pt.lead]
  · clear * - hv hl u1 u2 u3 a21; grind [Pt.lead]
  · clear * - hv hl u1 u2 u3 a22; grind [Pt.lead]

theorem start_lead {cerr : Nat → Option E} {g : G K E} {v : View (Op K E) (Res' E) (Pt K E)} (h : Inv cerr g v) {i : Nat} {k : K} {f : Option E}
    (hv : v i = some (.get k f, .inl .start)) (hl : g.flight k = none) :
    Inv cerr { g with flight := fun k' => if k' = k then some i else g.flight k' } (upd v i (some (.get k f, .inl .lookup))) := by
  obtain ⟨a1, a2, a3, a4, a5, a6, a7, a8, a9, a10, a11, a12, a13, a14, a15, a16, a17, a18, a19, a20, a21, a22⟩ := h
  generalize hv' : upd v i _ = v'
  obtain ⟨u1, u2, u3⟩ := upd_facts hv'
  clear hv'
  constructor
  · clear * - hv hl u1 u2 u3 a1; grind [Pt.lead]
  · clear * - hv hl u1 u2 u3 a2; grind [Pt.lead]
  · clear * - hv hl u1 u2 u3 a3; grind [Pt.lead]
  · clear * - hv hl u1 u2 u3 a1 a2 a3 a4; grind [Pt.lead]
  · clear * - hv hl u1 u2 u3 a2 a4 a5
    intro j k' f' x' o hj hc
    have := a5 j k' f' x' o
    cases o <;> simp only [OK] at this a5 ⊢ <;> grind [carries]
  · clear * - hv hl u1 u2 u3 a1 a6; grind [Pt.lead]
  · clear * - hv hl u1 u2 u3 a7; grind [Pt.lead]
  · clear * - hv hl u1 u2 u3 a8; grind [Pt.lead]
  · clear * - hv hl u1 u2 u3 a9; grind [Pt.lead]
  · clear * - hv hl u1 u2 u3 a10; grind [Pt.lead]
  · clear * - hv hl u1 u2 u3 a11; grind [Pt.lead]
  · clear * - hv hl u1 u2 u3 a12; grind [Pt.lead]
  · clear * - hv hl u1 u2 u3 a13; grind [Pt.lead]
  · clear * - hv hl u1 u2 u3 a14; grind [Pt.lead]
  · clear * - hv hl u1 u2 u3 a15 a17; grind [Pt.lead]
  · clear * - hv hl u1 u2 u3 a16; grind [Pt.lead]
  · clear * - hv hl u1 u2 u3 a17; grind [Pt.lead]
  · clear * - hv hl u1 u2 u3 a18 a17; grind [Pt.lead]
  · clear * - hv hl u1 u2 u3 a19; grind [Pt.lead]
  · clear * - hv hl u1 u2 u3 a20; grind [Pt.lead]
  · clear * - hv hl u1 u2 u3 a21; grind [Pt.lead]
  · clear * - hv hl u1 u2 u3 a22; grind [Pt.lead]

theorem wait_step {cerr : Nat → Option E} {g : G K E} {v : View (Op K E) (Res' E) (Pt K E)} (h : Inv cerr g v) {i : Nat} {k : K} {f : Option E} {l : Nat}
    (hv : v i = some (.get k f, .inl (.wait l))) {o : Outcome E} (hl : g.fin l = some o) :
    Inv cerr g (upd v i (some (.get k f, .inr (.get o)))) := by
  obtain ⟨a1, a2, a3, a4, a5, a6, a7, a8, a9, a10, a11, a12, a13, a14, a15, a16, a17, a18, a19, a20, a21, a22⟩ := h
  generalize hv' : upd v i _ = v'
  obtain ⟨u1, u2, u3⟩ := upd_facts hv'
  clear hv'
  constructor
  · clear * - hv hl u1 u2 u3 a1; grind [Pt.lead]
  · clear * - hv hl u1 u2 u3 a2; grind [Pt.lead]
  · clear * - hv hl u1 u2 u3 a3; grind [Pt.lead]
  · clear * - hv hl u1 u2 u3 a1 a2 a3 a4; grind [Pt.lead]
  · clear * - hv hl u1 u2 u3 a2 a4 a5
    intro j k' f' x' o hj hc
    have := a5 j k' f' x' o
    cases o <;> simp only [OK] at this a5 ⊢ <;> grind [carries]
  · clear * - hv hl u1 u2 u3 a1 a6; grind [Pt.lead]
  · clear * - hv hl u1 u2 u3 a7; grind [Pt.lead]
  · clear * - hv hl u1 u2 u3 a8; grind [Pt.lead]
  · clear * - hv hl u1 u2 u3 a9; grind [Pt.lead]
  · clear * - hv hl u1 u2 u3 a10; grind [Pt.lead]
  · clear * - hv hl u1 u2 u3 a11; grind [Pt.lead]
  · clear * - hv hl u1 u2 u3 a12; grind [Pt.lead]
  · clear * - hv hl u1 u2 u3 a13; grind [Pt.lead]
  · clear * - hv hl u1 u2 u3 a14; grind [Pt.lead]
  · clear * - hv hl u1 u2 u3 a15 a17; grind [Pt.lead]
  · clear * - hv hl u1 u2 u3 a16; grind [Pt.lead]
  · clear * - hv hl u1 u2 u3 a17; grind [Pt.lead]
  · clear * - hv hl u1 u2 u3 a18 a17; grind [Pt.lead]
  · clear * - hv hl u1 u2 u3 a19; grind [Pt.lead]
  · clear * - hv hl u1 u2 u3 a20; grind [Pt.lead]
  · clear * - hv hl u1 u2 u3 a21; grind [Pt.lead]
  · clear * - hv hl u1 u2 u3 a22; grind [Pt.lead]

theorem lookup_found {cerr : Nat → Option E} {g : G K E} {v : View (Op K E) (Res' E) (Pt K E)} (h : Inv cerr g v) {i : Nat} {k : K} {f : Option E}
    (hv : v i = some (.get k f, .inl .lookup)) {l : List (K × Nat)} {r : Nat} (hl : g.res = some l) (hr : find l k = some r) :
    Inv cerr g (upd v i (some (.get k f, .inl (.finish (.got r))))) := by
  obtain ⟨a1, a2, a3, a4, a5, a6, a7, a8, a9, a10, a11, a12, a13, a14, a15, a16, a17, a18, a19, a20, a21, a22⟩ := h
  generalize hv' : upd v i _ = v'
  obtain ⟨u1, u2, u3⟩ := upd_facts hv'
  clear hv'
  constructor
  · clear * - hv hl hr u1 u2 u3 a1; grind [Pt.lead]
  · clear * - hv hl hr u1 u2 u3 a2; grind [Pt.lead]
  · clear * - hv hl hr u1 u2 u3 a3; grind [Pt.lead]
  · clear * - hv hl hr u1 u2 u3 a1 a2 a3 a4; grind [Pt.lead]
  · clear * - hv hl hr u1 u2 u3 a2 a4 a5 a11 a14
    intro j k' f' x' o hj hc
    have := a5 j k' f' x' o
    cases o <;> simp only [OK] at this a5 ⊢ <;> grind [carries]
  · clear * - hv hl hr u1 u2 u3 a1 a6; grind [Pt.lead]
  · clear * - hv hl hr u1 u2 u3 a7; grind [Pt.lead]
  · clear * - hv hl hr u1 u2 u3 a8; grind [Pt.lead]
  · clear * - hv hl hr u1 u2 u3 a9; grind [Pt.lead]
  · clear * - hv hl hr u1 u2 u3 a10; grind [Pt.lead]
  · clear * - hv hl hr u1 u2 u3 a11; grind [Pt.lead]
  · clear * - hv hl hr u1 u2 u3 a12; grind [Pt.lead]
  · clear * - hv hl hr u1 u2 u3 a13; grind [Pt.lead]
  · clear * - hv hl hr u1 u2 u3 a14; grind [Pt.lead]
  · clear * - hv hl hr u1 u2 u3 a15 a17; grind [Pt.lead]
  · clear * - hv hl hr u1 u2 u3 a16; grind [Pt.lead]
  · clear * - hv hl hr u1 u2 u3 a17; grind [Pt.lead]
  · clear * - hv hl hr u1 u2 u3 a18 a17; grind [Pt.lead]
  · clear * - hv hl hr u1 u2 u3 a19; grind [Pt.lead]
  · clear * - hv hl hr u1 u2 u3 a20; grind [Pt.lead]
  · clear * - hv hl hr u1 u2 u3 a21; grind [Pt.lead]
  · clear * - hv hl hr u1 u2 u3 a22; grind [Pt.lead]

theorem lookup_absent {cerr : Nat → Option E} {g : G K E} {v : View (Op K E) (Res' E) (Pt K E)} (h : Inv cerr g v) {i : Nat} {k : K} {f : Option E}
    (hv : v i = some (.get k f, .inl .lookup)) (hr : ∀ l, g.res = some l → find l k = none) :
    Inv cerr g (upd v i (some (.get k f, .inl .create))) := by
  obtain ⟨a1, a2, a3, a4, a5, a6, a7, a8, a9, a10, a11, a12, a13, a14, a15, a16, a17, a18, a19, a20, a21, a22⟩ := h
  generalize hv' : upd v i _ = v'
  obtain ⟨u1, u2, u3⟩ := upd_facts hv'
  clear hv'
  constructor
  · clear * - hv hr u1 u2 u3 a1; grind [Pt.lead]
  · clear * - hv hr u1 u2 u3 a2; grind [Pt.lead]
  · clear * - hv hr u1 u2 u3 a3; grind [Pt.lead]
  · clear * - hv hr u1 u2 u3 a1 a2 a3 a4; grind [Pt.lead]
  · clear * - hv hr u1 u2 u3 a2 a4 a5
    intro j k' f' x' o hj hc
    have := a5 j k' f' x' o
    cases o <;> simp only [OK] at this a5 ⊢ <;> grind [carries]
  · clear * - hv hr u1 u2 u3 a1 a6; grind [Pt.lead]
  · clear * - hv hr u1 u2 u3 a7; grind [Pt.lead]
  · clear * - hv hr u1 u2 u3 a8; grind [Pt.lead]
  · clear * - hv hr u1 u2 u3 a9; grind [Pt.lead]
  · clear * - hv hr u1 u2 u3 a10; grind [Pt.lead]
  · clear * - hv hr u1 u2 u3 a11; grind [Pt.lead]
  · clear * - hv hr u1 u2 u3 a12; grind [Pt.lead]
  · clear * - hv hr u1 u2 u3 a13; grind [Pt.lead]
  · clear * - hv hr u1 u2 u3 a14; grind [Pt.lead]
  · clear * - hv hr u1 u2 u3 a15 a17; grind [Pt.lead]
  · clear * - hv hr u1 u2 u3 a16; grind [Pt.lead]
  · clear * - hv hr u1 u2 u3 a17; grind [Pt.lead]
  · clear * - hv hr u1 u2 u3 a18 a17; grind [Pt.lead]
  · clear * - hv hr u1 u2 u3 a19; grind [Pt.lead]
  · clear * - hv hr u1 u2 u3 a20; grind [Pt.lead]
  · clear * - hv hr u1 u2 u3 a21; grind [Pt.lead]
  · clear * - hv hr u1 u2 u3 a22; grind [Pt.lead]

theorem create_failed {cerr : Nat → Option E} {g : G K E} {v : View (Op K E) (Res' E) (Pt K E)} (h : Inv cerr g v) {i : Nat} {k : K} {e : E}
    (hv : v i = some (.get k (some e), .inl .create)) :
    Inv cerr g (upd v i (some (.get k (some e), .inl (.finish (.failed e))))) := by
  obtain ⟨a1, a2, a3, a4, a5, a6, a7, a8, a9, a10, a11, a12, a13, a14, a15, a16, a17, a18, a19, a20, a21, a22⟩ := h
  generalize hv' : upd v i _ = v'
  obtain ⟨u1, u2, u3⟩ := upd_facts hv'
  clear hv'
  constructor
  · clear * - hv u1 u2 u3 a1; grind [Pt.lead]
  · clear * - hv u1 u2 u3 a2; grind [Pt.lead]
  · clear * - hv u1 u2 u3 a3; grind [Pt.lead]
  · clear * - hv u1 u2 u3 a1 a2 a3 a4; grind [Pt.lead]
  · clear * - hv u1 u2 u3 a2 a4 a5
    intro j k' f' x' o hj hc
    have := a5 j k' f' x' o
    cases o <;> simp only [OK] at this a5 ⊢ <;> grind [carries]
  · clear * - hv u1 u2 u3 a1 a6; grind [Pt.lead]
  · clear * - hv u1 u2 u3 a7; grind [Pt.lead]
  · clear * - hv u1 u2 u3 a8; grind [Pt.lead]
  · clear * - hv u1 u2 u3 a9; grind [Pt.lead]
  · clear * - hv u1 u2 u3 a10; grind [Pt.lead]
  · clear * - hv u1 u2 u3 a11; grind [Pt.lead]
  · clear * - hv u1 u2 u3 a12; grind [Pt.lead]
  · clear * - hv u1 u2 u3 a13; grind [Pt.lead]
  · clear * - hv u1 u2 u3 a14; grind [Pt.lead]
  · clear * - hv u1 u2 u3 a15 a17; grind [Pt.lead]
  · clear * - hv u1 u2 u3 a16; grind [Pt.lead]
  · clear * - hv u1 u2 u3 a17; grind [Pt.lead]
  · clear * - hv u1 u2 u3 a18 a17; grind [Pt.lead]
  · clear * - hv u1 u2 u3 a19; grind [Pt.lead]
  · clear * - hv u1 u2 u3 a20; grind [Pt.lead]
  · clear * - hv u1 u2 u3 a21; grind [Pt.lead]
  · clear * - hv u1 u2 u3 a22; grind [Pt.lead]

theorem create_ok {cerr : Nat → Option E} {g : G K E} {v : View (Op K E) (Res' E) (Pt K E)} (h : Inv cerr g v) {i : Nat} {k : K}
    (hv : v i = some (.get k none, .inl .create)) :
    Inv cerr { g with log := g.log ++ [.created k i] } (upd v i (some (.get k none, .inl .store))) := by
  obtain ⟨a1, a2, a3, a4, a5, a6, a7, a8, a9, a10, a11, a12, a13, a14, a15, a16, a17, a18, a19, a20, a21, a22⟩ := h
  generalize hv' : upd v i _ = v'
  obtain ⟨u1, u2, u3⟩ := upd_facts hv'
  clear hv'
  constructor
  · clear * - hv u1 u2 u3 a1; grind [Pt.lead, held_append, closedLog_append]
  · clear * - hv u1 u2 u3 a2; grind [Pt.lead, held_append, closedLog_append]
  · clear * - hv u1 u2 u3 a3; grind [Pt.lead, held_append, closedLog_append]
  · clear * - hv u1 u2 u3 a1 a2 a3 a4; grind [Pt.lead, held_append, closedLog_append]
  · clear * - hv u1 u2 u3 a2 a4 a5
    intro j k' f' x' o hj hc
    have := a5 j k' f' x' o
    cases o <;> simp only [OK] at this a5 ⊢ <;> grind [carries, held_append, closedLog_append]
  · clear * - hv u1 u2 u3 a1 a6; grind [Pt.lead, held_append, closedLog_append]
  · clear * - hv u1 u2 u3 a7; grind [Pt.lead, held_append, closedLog_append]
  · clear * - hv u1 u2 u3 a8; grind [Pt.lead, held_append, closedLog_append]
  · clear * - hv u1 u2 u3 a9; grind [Pt.lead, held_append, closedLog_append]
  · clear * - hv u1 u2 u3 a10; grind [Pt.lead, held_append, closedLog_append]
  · clear * - hv u1 u2 u3 a11; grind [Pt.lead, held_append, closedLog_append]
  · clear * - hv u1 u2 u3 a12
    intro l k' j l₁ l₂ hl he hn
    rcases snoc_split he with ⟨rfl, rfl, e⟩ | ⟨l₂', rfl, he'⟩
    · grind
    · have := a12 l k' j l₁ l₂' hl he' (by grind)
      grind
  · clear * - hv u1 u2 u3 a12 a13 a6 a1
    intro k' j j' l₁ l₂ l₃ hl he
    rw [← List.cons_append, ← List.append_assoc] at he
    rcases snoc_split he with ⟨rfl, he', e⟩ | ⟨l₂', rfl, he'⟩
    · simp only [LogEv.created.injEq] at e
      obtain ⟨rfl, rfl⟩ := e
      cases hres : g.res with
      | none => exact absurd hres hl
      | some l =>
        by_contra hno
        have := a12 l k' j l₁ l₂ hres he'.symm (by grind)
        have h6 := a6 j' k' none l (Or.inl hv) hres
        rcases this with this | this
        · rw [h6] at this; simp at this
        · have e1 := (a1 k' j).2 ⟨none, _, this, rfl⟩
          have e2 := (a1 k' j').2 ⟨none, _, hv, rfl⟩
          rw [e1] at e2; simp at e2; subst e2; rw [hv] at this; simp at this
    · exact a13 k' j j' l₁ l₂ l₂' hl (by rw [he']; simp)
  · clear * - hv u1 u2 u3 a14; grind [Pt.lead, held_append, closedLog_append]
  · clear * - hv u1 u2 u3 a15 a17; grind [Pt.lead, held_append, closedLog_append]
  · clear * - hv u1 u2 u3 a16; grind [Pt.lead, held_append, closedLog_append]
  · clear * - hv u1 u2 u3 a17; grind [Pt.lead, held_append, closedLog_append]
  · clear * - hv u1 u2 u3 a18 a17; grind [Pt.lead, held_append, closedLog_append]
  · clear * - hv u1 u2 u3 a19; grind [Pt.lead, held_append, closedLog_append]
  · clear * - hv u1 u2 u3 a20; grind [Pt.lead, held_append, closedLog_append]
  · clear * - hv u1 u2 u3 a21; grind [Pt.lead, held_append, closedLog_append]
  · clear * - hv u1 u2 u3 a22; grind [Pt.lead, held_append, closedLog_append]

theorem store_ok {cerr : Nat → Option E} {g : G K E} {v : View (Op K E) (Res' E) (Pt K E)} (h : Inv cerr g v) {i : Nat} {k : K} {f : Option E}
    (hv : v i = some (.get k f, .inl .store)) {l : List (K × Nat)} (hl : g.res = some l) (hw : g.wlock = none) :
    Inv cerr { g with res := some (insert l k i), log := g.log ++ [.stored k i] } (upd v i (some (.get k f, .inl (.finish (.got i))))) := by
  obtain ⟨a1, a2, a3, a4, a5, a6, a7, a8, a9, a10, a11, a12, a13, a14, a15, a16, a17, a18, a19, a20, a21, a22⟩ := h
  generalize hv' : upd v i _ = v'
  obtain ⟨u1, u2, u3⟩ := upd_facts hv'
  clear hv'
  constructor
  · clear * - hv hl hw u1 u2 u3 a1; grind [Pt.lead, held_append, closedLog_append, find_insert, nodup_insert]
  · clear * - hv hl hw u1 u2 u3 a2; grind [Pt.lead, held_append, closedLog_append, find_insert, nodup_insert]
  · clear * - hv hl hw u1 u2 u3 a3; grind [Pt.lead, held_append, closedLog_append, find_insert, nodup_insert]
  · clear * - hv hl hw u1 u2 u3 a1 a2 a3 a4; grind [Pt.lead, held_append, closedLog_append, find_insert, nodup_insert]
  · clear * - hv hl hw u1 u2 u3 a2 a4 a5
    intro j k' f' x' o hj hc
    have := a5 j k' f' x' o
    cases o <;> simp only [OK] at this a5 ⊢ <;> grind [carries, held_append, closedLog_append, find_insert, nodup_insert]
  · clear * - hv hl u1 u2 u3 a1 a6
    intro j k' f' l' hj hl'
    have e1 := (a1 k i).2 ⟨f, _, hv, rfl⟩
    have e2 := fun (s : Pt K E) hs (h : s.lead = true) => (a1 k' j).2 ⟨f', s, hs, h⟩
    grind [find_insert, Pt.lead]
  · clear * - hv hl hw u1 u2 u3 a7; grind [Pt.lead, held_append, closedLog_append, find_insert, nodup_insert]
  · clear * - hv hl hw u1 u2 u3 a8 a7; grind [Pt.lead, held_append, closedLog_append, find_insert, nodup_insert]
  · clear * - hv hl hw u1 u2 u3 a9 a7; grind [Pt.lead, held_append, closedLog_append, find_insert, nodup_insert]
  · clear * - hv hl hw u1 u2 u3 a10; grind [Pt.lead, held_append, closedLog_append, find_insert, nodup_insert]
  · clear * - hv hl hw u1 u2 u3 a11; grind [Pt.lead, held_append, closedLog_append, find_insert, nodup_insert]
  · clear * - hv hl u1 u2 u3 a12 a6
    intro l' k' j l₁ l₂ hl' he hn
    have h6 := a6 i k f l (Or.inr hv) hl
    rcases snoc_split he with ⟨rfl, rfl, e⟩ | ⟨l₂', rfl, he'⟩
    · grind
    · have := a12 l k' j l₁ l₂' hl he' (by grind)
      grind [find_insert]
  · clear * - hl a13
    intro k' j j' l₁ l₂ l₃ hl' he
    rw [← List.cons_append, ← List.append_assoc] at he
    rcases snoc_split he with ⟨rfl, he', e⟩ | ⟨l₂', rfl, he'⟩
    · simp at e
    · exact a13 k' j j' l₁ l₂ l₂' (by simp [hl]) (by rw [he']; simp)
  · clear * - hv hl hw u1 u2 u3 a14; grind [Pt.lead, held_append, closedLog_append, find_insert, nodup_insert]
  · clear * - hv hl hw u1 u2 u3 a15 a17; grind [Pt.lead, held_append, closedLog_append, find_insert, nodup_insert]
  · clear * - hv hl hw u1 u2 u3 a16; grind [Pt.lead, held_append, closedLog_append, find_insert, nodup_insert]
  · clear * - hv hl hw u1 u2 u3 a17; grind [Pt.lead, held_append, closedLog_append, find_insert, nodup_insert]
  · clear * - hv hl hw u1 u2 u3 a18 a17; grind [Pt.lead, held_append, closedLog_append, find_insert, nodup_insert]
  · clear * - hv hl hw u1 u2 u3 a19; grind [Pt.lead, held_append, closedLog_append, find_insert, nodup_insert]
  · clear * - hv hl hw u1 u2 u3 a20; grind [Pt.lead, held_append, closedLog_append, find_insert, nodup_insert]
  · clear * - hv hl hw u1 u2 u3 a21; grind [Pt.lead, held_append, closedLog_append, find_insert, nodup_insert]
  · clear * - hv hl hw u1 u2 u3 a22; grind [Pt.lead, held_append, closedLog_append, find_insert, nodup_insert]

theorem store_panic {cerr : Nat → Option E} {g : G K E} {v : View (Op K E) (Res' E) (Pt K E)} (h : Inv cerr g v) {i : Nat} {k : K} {f : Option E}
    (hv : v i = some (.get k f, .inl .store)) (hl : g.res = none) (hw : g.wlock = none) :
    Inv cerr { g with wlock := some i } (upd v i (some (.get k f, .inl (.finish .panic)))) := by
  obtain ⟨a1, a2, a3, a4, a5, a6, a7, a8, a9, a10, a11, a12, a13, a14, a15, a16, a17, a18, a19, a20, a21, a22⟩ := h
  generalize hv' : upd v i _ = v'
  obtain ⟨u1, u2, u3⟩ := upd_facts hv'
  clear hv'
  constructor
  · clear * - hv hl hw u1 u2 u3 a1; grind [Pt.lead]
  · clear * - hv hl hw u1 u2 u3 a2; grind [Pt.lead]
  · clear * - hv hl hw u1 u2 u3 a3; grind [Pt.lead]
  · clear * - hv hl hw u1 u2 u3 a1 a2 a3 a4; grind [Pt.lead]
  · clear * - hv hl hw u1 u2 u3 a2 a4 a5
    intro j k' f' x' o hj hc
    have := a5 j k' f' x' o
    cases o <;> simp only [OK] at this a5 ⊢ <;> grind [carries]
  · clear * - hv hl hw u1 u2 u3 a1 a6; grind [Pt.lead]
  · clear * - hv hl hw u1 u2 u3 a7; grind [Pt.lead]
  · clear * - hv hl hw u1 u2 u3 a8; grind [Pt.lead]
  · clear * - hv hl hw u1 u2 u3 a9; grind [Pt.lead]
  · clear * - hv hl hw u1 u2 u3 a10; grind [Pt.lead]
  · clear * - hv hl hw u1 u2 u3 a11; grind [Pt.lead]
  · clear * - hv hl hw u1 u2 u3 a12; grind [Pt.lead]
  · clear * - hv hl hw u1 u2 u3 a13; grind [Pt.lead]
  · clear * - hv hl hw u1 u2 u3 a14; grind [Pt.lead]
  · clear * - hv hl hw u1 u2 u3 a15 a17; grind [Pt.lead]
  · clear * - hv hl hw u1 u2 u3 a16; grind [Pt.lead]
  · clear * - hv hl hw u1 u2 u3 a17; grind [Pt.lead]
  · clear * - hv hl hw u1 u2 u3 a18 a17; grind [Pt.lead]
  · clear * - hv hl hw u1 u2 u3 a19; grind [Pt.lead]
  · clear * - hv hl hw u1 u2 u3 a20; grind [Pt.lead]
  · clear * - hv hl hw u1 u2 u3 a21; grind [Pt.lead]
  · clear * - hv hl hw u1 u2 u3 a22; grind [Pt.lead]

theorem finish_step {cerr : Nat → Option E} {g : G K E} {v : View (Op K E) (Res' E) (Pt K E)} (h : Inv cerr g v) {i : Nat} {k : K} {f : Option E} {o : Outcome E}
    (hv : v i = some (.get k f, .inl (.finish o))) :
    Inv cerr { g with fin := upd g.fin i (some o) } (upd v i (some (.get k f, .inl (.drop o)))) := by
  obtain ⟨a1, a2, a3, a4, a5, a6, a7, a8, a9, a10, a11, a12, a13, a14, a15, a16, a17, a18, a19, a20, a21, a22⟩ := h
  generalize hv' : upd v i _ = v'
  obtain ⟨u1, u2, u3⟩ := upd_facts hv'
  clear hv'
  constructor
  · clear * - hv u1 u2 u3 a1; grind [Pt.lead, upd]
  · clear * - hv u1 u2 u3 a2; grind [Pt.lead, upd]
  · clear * - hv u1 u2 u3 a3; grind [Pt.lead, upd]
  · clear * - hv u1 u2 u3 a1 a2 a3 a4; grind [Pt.lead, upd]
  · clear * - hv u1 u2 u3 a2 a4 a5
    intro j k' f' x' o hj hc
    have := a5 j k' f' x' o
    cases o <;> simp only [OK] at this a5 ⊢ <;> grind [carries, upd]
  · clear * - hv u1 u2 u3 a1 a6; grind [Pt.lead, upd]
  · clear * - hv u1 u2 u3 a7; grind [Pt.lead, upd]
  · clear * - hv u1 u2 u3 a8; grind [Pt.lead, upd]
  · clear * - hv u1 u2 u3 a9; grind [Pt.lead, upd]
  · clear * - hv u1 u2 u3 a10; grind [Pt.lead, upd]
  · clear * - hv u1 u2 u3 a11; grind [Pt.lead, upd]
  · clear * - hv u1 u2 u3 a12; grind [Pt.lead, upd]
  · clear * - hv u1 u2 u3 a13; grind [Pt.lead, upd]
  · clear * - hv u1 u2 u3 a14; grind [Pt.lead, upd]
  · clear * - hv u1 u2 u3 a15 a17; grind [Pt.lead, upd]
  · clear * - hv u1 u2 u3 a16; grind [Pt.lead, upd]
  · clear * - hv u1 u2 u3 a17; grind [Pt.lead, upd]
  · clear * - hv u1 u2 u3 a18 a17; grind [Pt.lead, upd]
  · clear * - hv u1 u2 u3 a19; grind [Pt.lead, upd]
  · clear * - hv u1 u2 u3 a20; grind [Pt.lead, upd]
  · clear * - hv u1 u2 u3 a21; grind [Pt.lead, upd]
  · clear * - hv u1 u2 u3 a22; grind [Pt.lead, upd]

theorem drop_step {cerr : Nat → Option E} {g : G K E} {v : View (Op K E) (Res' E) (Pt K E)} (h : Inv cerr g v) {i : Nat} {k : K} {f : Option E} {o : Outcome E}
    (hv : v i = some (.get k f, .inl (.drop o))) :
    Inv cerr { g with flight := fun k' => if k' = k then none else g.flight k' } (upd v i (some (.get k f, .inr (.get o)))) := by
  obtain ⟨a1, a2, a3, a4, a5, a6, a7, a8, a9, a10, a11, a12, a13, a14, a15, a16, a17, a18, a19, a20, a21, a22⟩ := h
  have e1 := (a1 k i).2 ⟨f, _, hv, rfl⟩
  generalize hv' : upd v i _ = v'
  obtain ⟨u1, u2, u3⟩ := upd_facts hv'
  clear hv'
  constructor
  · clear * - hv e1 u1 u2 u3 a1; grind [Pt.lead]
  · clear * - hv e1 u1 u2 u3 a2; grind [Pt.lead]
  · clear * - hv e1 u1 u2 u3 a3; grind [Pt.lead]
  · clear * - hv e1 u1 u2 u3 a1 a2 a3 a4; grind [Pt.lead]
  · clear * - hv e1 u1 u2 u3 a2 a4 a5
    intro j k' f' x' o hj hc
    have := a5 j k' f' x' o
    cases o <;> simp only [OK] at this a5 ⊢ <;> grind [carries]
  · clear * - hv e1 u1 u2 u3 a1 a6; grind [Pt.lead]
  · clear * - hv e1 u1 u2 u3 a7; grind [Pt.lead]
  · clear * - hv e1 u1 u2 u3 a8; grind [Pt.lead]
  · clear * - hv e1 u1 u2 u3 a9; grind [Pt.lead]
  · clear * - hv e1 u1 u2 u3 a10; grind [Pt.lead]
  · clear * - hv e1 u1 u2 u3 a11; grind [Pt.lead]
  · clear * - hv e1 u1 u2 u3 a12; grind [Pt.lead]
  · clear * - hv e1 u1 u2 u3 a13; grind [Pt.lead]
  · clear * - hv e1 u1 u2 u3 a14; grind [Pt.lead]
  · clear * - hv e1 u1 u2 u3 a15 a17; grind [Pt.lead]
  · clear * - hv e1 u1 u2 u3 a16; grind [Pt.lead]
  · clear * - hv e1 u1 u2 u3 a17; grind [Pt.lead]
  · clear * - hv e1 u1 u2 u3 a18 a17; grind [Pt.lead]
  · clear * - hv e1 u1 u2 u3 a19; grind [Pt.lead]
  · clear * - hv e1 u1 u2 u3 a20; grind [Pt.lead]
  · clear * - hv e1 u1 u2 u3 a21; grind [Pt.lead]
  · clear * - hv e1 u1 u2 u3 a22; grind [Pt.lead]

theorem remove_absent {cerr : Nat → Option E} {g : G K E} {v : View (Op K E) (Res' E) (Pt K E)} (h : Inv cerr g v) {i : Nat} {k : K}
    (hv : v i = some (.remove k, .inl .remove)) : Inv cerr g (upd v i (some (.remove k, .inr (.removed false)))) := by
  obtain ⟨a1, a2, a3, a4, a5, a6, a7, a8, a9, a10, a11, a12, a13, a14, a15, a16, a17, a18, a19, a20, a21, a22⟩ := h
  generalize hv' : upd v i _ = v'
  obtain ⟨u1, u2, u3⟩ := upd_facts hv'
  clear hv'
  constructor
  · clear * - hv u1 u2 u3 a1; grind [Pt.lead]
  · clear * - hv u1 u2 u3 a2; grind [Pt.lead]
  · clear * - hv u1 u2 u3 a3; grind [Pt.lead]
  · clear * - hv u1 u2 u3 a1 a2 a3 a4; grind [Pt.lead]
  · clear * - hv u1 u2 u3 a2 a4 a5
    intro j k' f' x' o hj hc
    have := a5 j k' f' x' o
    cases o <;> simp only [OK] at this a5 ⊢ <;> grind [carries]
  · clear * - hv u1 u2 u3 a1 a6; grind [Pt.lead]
  · clear * - hv u1 u2 u3 a7; grind [Pt.lead]
  · clear * - hv u1 u2 u3 a8; grind [Pt.lead]
  · clear * - hv u1 u2 u3 a9; grind [Pt.lead]
  · clear * - hv u1 u2 u3 a10; grind [Pt.lead]
  · clear * - hv u1 u2 u3 a11; grind [Pt.lead]
  · clear * - hv u1 u2 u3 a12; grind [Pt.lead]
  · clear * - hv u1 u2 u3 a13; grind [Pt.lead]
  · clear * - hv u1 u2 u3 a14; grind [Pt.lead]
  · clear * - hv u1 u2 u3 a15 a17; grind [Pt.lead]
  · clear * - hv u1 u2 u3 a16; grind [Pt.lead]
  · clear * - hv u1 u2 u3 a17; grind [Pt.lead]
  · clear * - hv u1 u2 u3 a18 a17; grind [Pt.lead]
  · clear * - hv u1 u2 u3 a19; grind [Pt.lead]
  · clear * - hv u1 u2 u3 a20; grind [Pt.lead]
  · clear * - hv u1 u2 u3 a21; grind [Pt.lead]
  · clear * - hv u1 u2 u3 a22; grind [Pt.lead]

theorem remove_found {cerr : Nat → Option E} {g : G K E} {v : View (Op K E) (Res' E) (Pt K E)} (h : Inv cerr g v) {i : Nat} {k : K}
    (hv : v i = some (.remove k, .inl .remove)) {l : List (K × Nat)} {r : Nat} (hl : g.res = some l) (hr : find l k = some r) (hw : g.wlock = none) :
    Inv cerr { g with res := some (erase l k), log := g.log ++ [.removed k r], remBy := upd g.remBy r (some i) } (upd v i (some (.remove k, .inr (.removed true)))) := by
  obtain ⟨a1, a2, a3, a4, a5, a6, a7, a8, a9, a10, a11, a12, a13, a14, a15, a16, a17, a18, a19, a20, a21, a22⟩ := h
  generalize hv' : upd v i _ = v'
  obtain ⟨u1, u2, u3⟩ := upd_facts hv'
  clear hv'
  constructor
  · clear * - hv hl hr hw u1 u2 u3 a1; grind [Pt.lead, held_append, closedLog_append, find_erase, nodup_erase]
  · clear * - hv hl hr hw u1 u2 u3 a2; grind [Pt.lead, held_append, closedLog_append, find_erase, nodup_erase]
  · clear * - hv hl hr hw u1 u2 u3 a3; grind [Pt.lead, held_append, closedLog_append, find_erase, nodup_erase]
  · clear * - hv hl hr hw u1 u2 u3 a1 a2 a3 a4; grind [Pt.lead, held_append, closedLog_append, find_erase, nodup_erase]
  · clear * - hv hl hr hw u1 u2 u3 a2 a4 a5
    intro j k' f' x' o hj hc
    have := a5 j k' f' x' o
    cases o <;> simp only [OK] at this a5 ⊢ <;> grind [carries, held_append, closedLog_append, find_erase, nodup_erase]
  · clear * - hv hl hr hw u1 u2 u3 a1 a6; grind [Pt.lead, held_append, closedLog_append, find_erase, nodup_erase]
  · clear * - hv hl hr hw u1 u2 u3 a7; grind [Pt.lead, held_append, closedLog_append, find_erase, nodup_erase]
  · clear * - hv hl hr hw u1 u2 u3 a8; grind [Pt.lead, held_append, closedLog_append, find_erase, nodup_erase]
  · clear * - hv hl hr hw u1 u2 u3 a9; grind [Pt.lead, held_append, closedLog_append, find_erase, nodup_erase]
  · clear * - hv hl hr hw u1 u2 u3 a10; grind [Pt.lead, held_append, closedLog_append, find_erase, nodup_erase]
  · clear * - hv hl hr hw u1 u2 u3 a11; grind [Pt.lead, held_append, closedLog_append, find_erase, nodup_erase]
  · clear * - hv hl u1 u2 u3 a12
    intro l' k' j l₁ l₂ hl' he hn
    rcases snoc_split he with ⟨rfl, rfl, e⟩ | ⟨l₂', rfl, he'⟩
    · grind
    · have := a12 l k' j l₁ l₂' hl he' (by grind)
      grind [find_erase]
  · clear * - hl a13
    intro k' j j' l₁ l₂ l₃ hl' he
    rw [← List.cons_append, ← List.append_assoc] at he
    rcases snoc_split he with ⟨rfl, he', e⟩ | ⟨l₂', rfl, he'⟩
    · simp at e
    · exact a13 k' j j' l₁ l₂ l₂' (by simp [hl]) (by rw [he']; simp)
  · clear * - hv hl hr hw u1 u2 u3 a14; grind [Pt.lead, held_append, closedLog_append, find_erase, nodup_erase]
  · clear * - hv hl hr hw u1 u2 u3 a15 a17; grind [Pt.lead, held_append, closedLog_append, find_erase, nodup_erase]
  · clear * - hv hl hr hw u1 u2 u3 a16; grind [Pt.lead, held_append, closedLog_append, find_erase, nodup_erase]
  · clear * - hv hl hr hw u1 u2 u3 a17; grind [Pt.lead, held_append, closedLog_append, find_erase, nodup_erase]
  · clear * - hv hl hr hw u1 u2 u3 a18 a17; grind [Pt.lead, held_append, closedLog_append, find_erase, nodup_erase]
  · clear * - hv hl hr hw u1 u2 u3 a19; grind [Pt.lead, held_append, closedLog_append, find_erase, nodup_erase]
  · clear * - hv hl hr hw u1 u2 u3 a20; grind [Pt.lead, held_append, closedLog_append, find_erase, nodup_erase]
  · clear * - hv hl hr hw u1 u2 u3 a21; grind [Pt.lead, held_append, closedLog_append, find_erase, nodup_erase]
  · clear * - hv hl hr hw u1 u2 u3 a22; grind [Pt.lead, held_append, closedLog_append, find_erase, nodup_erase]

theorem addAll_snoc (be : BatchError E) (l : List (Option E)) (e : Option E) : addAll be (l ++ [e]) = (addAll be l).add e := by
  induction l generalizing be with
  | nil => rfl
  | cons a l ih => simp only [List.cons_append, addAll, ih]

theorem lock_step {cerr : Nat → Option E} {g : G K E} {v : View (Op K E) (Res' E) (Pt K E)} (h : Inv cerr g v) {i : Nat}
    (hv : v i = some (.close, .inl .lock)) (hw : g.wlock = none) :
    Inv cerr { g with wlock := some i, heldAt := upd g.heldAt i (g.res.getD []), closedBy := upd g.closedBy i [], logAt := upd g.logAt i g.log }
      (upd v i (some (.close, .inl (.closing (g.res.getD []) .zero)))) := by
  obtain ⟨a1, a2, a3, a4, a5, a6, a7, a8, a9, a10, a11, a12, a13, a14, a15, a16, a17, a18, a19, a20, a21, a22⟩ := h
  generalize hv' : upd v i _ = v'
  obtain ⟨u1, u2, u3⟩ := upd_facts hv'
  clear hv'
  constructor
  · clear * - hv hw u1 u2 u3 a1; grind [Pt.lead, upd]
  · clear * - hv hw u1 u2 u3 a2; grind [Pt.lead, upd]
  · clear * - hv hw u1 u2 u3 a3; grind [Pt.lead, upd]
  · clear * - hv hw u1 u2 u3 a1 a2 a3 a4; grind [Pt.lead, upd]
  · clear * - hv hw u1 u2 u3 a2 a4 a5
    intro j k' f' x' o hj hc
    have := a5 j k' f' x' o
    cases o <;> simp only [OK] at this a5 ⊢ <;> grind [carries, upd]
  · clear * - hv hw u1 u2 u3 a1 a6; grind [Pt.lead, upd]
  · clear * - hv hw u1 u2 u3 a7; grind [Pt.lead, upd]
  · clear * - hv hw u1 u2 u3 a8; grind [Pt.lead, upd]
  · clear * - hv hw u1 u2 u3 a9; grind [Pt.lead, upd]
  · clear * - hv hw u1 u2 u3 a10; grind [Pt.lead, upd]
  · clear * - hv hw u1 u2 u3 a11; grind [Pt.lead, upd]
  · clear * - hv hw u1 u2 u3 a12; grind [Pt.lead, upd]
  · clear * - hv hw u1 u2 u3 a13; grind [Pt.lead, upd]
  · clear * - hv hw u1 u2 u3 a14; grind [Pt.lead, upd]
  · clear * - hv hw a15 a18 u1 u2 u3
    intro j todo be hj
    by_cases hji : j = i
    · subst hji
      rw [u1] at hj
      simp only [Option.some.injEq, Prod.mk.injEq, Sum.inl.injEq, Pt.closing.injEq, true_and] at hj
      obtain ⟨rfl, rfl⟩ := hj
      refine ⟨rfl, by simp, by simp, by simp [addAll], fun hr => ?_⟩
      simp [a18 hr hw]
    · rw [u2 j hji] at hj
      have := (a15 j todo be hj).1
      rw [hw] at this; simp at this
  · clear * - hv hw u1 u2 u3 a16; grind [Pt.lead, upd]
  · clear * - hv hw u1 u2 u3 a17; grind [Pt.lead, upd]
  · clear * - hv hw u1 u2 u3 a18 a17; grind [Pt.lead, upd]
  · clear * - hv hw u1 u2 u3 a19; grind [Pt.lead, upd]
  · clear * - hv hw u1 u2 u3 a20; grind [Pt.lead, upd]
  · clear * - hv hw a20 a21 a10 a11 u1 u2 u3
    intro j x hj hx
    by_cases hji : j = i
    · subst hji
      cases hres : g.res with
      | none =>
        obtain ⟨j', r, hj'⟩ := a20 hres
        have : j' ≠ j := by rintro rfl; rw [hv] at hj'; simp at hj'
        exact Or.inl ⟨j', r, this, by rw [u2 _ this]; exact hj'⟩
      | some l =>
        right
        intro k r
        simp only [upd_same, Option.getD_some]
        rw [← a11 l k hres]
        exact ⟨find_of_mem (a10 l hres), find_mem⟩
    · rw [u2 j hji] at hj
      simp only [upd_ne _ _ hji]
      rcases a21 j x hj hx with ⟨j', r, h1, h2⟩ | h'
      · left; exact ⟨j', r, h1, by grind⟩
      · exact Or.inr h'
  · clear * - hv hw u1 u2 u3 a22; grind [Pt.lead, upd]

theorem nodup_snd {cerr : Nat → Option E} {g : G K E} {v : View (Op K E) (Res' E) (Pt K E)} (h : Inv cerr g v) {l : List (K × Nat)} (hl : g.res = some l) :
    (l.map (·.2)).Nodup := by
  have hk := h.keys l hl
  have hinj : ∀ x ∈ l, ∀ y ∈ l, x.2 = y.2 → x.1 = y.1 := by
    rintro ⟨k, r⟩ hx ⟨k', r'⟩ hy rfl
    have h1 := h.heldStored k r (by rw [← h.findEq l k hl]; exact find_of_mem hk hx)
    have h2 := h.heldStored k' r (by rw [← h.findEq l k' hl]; exact find_of_mem hk hy)
    obtain ⟨x1, e1, _⟩ := h.storedView _ _ h1
    obtain ⟨x2, e2, _⟩ := h.storedView _ _ h2
    rw [e1] at e2; simp at e2; exact e2.1
  clear h hl
  induction l with
  | nil => simp
  | cons x l ih =>
    simp only [List.map_cons, List.nodup_cons] at hk ⊢
    refine ⟨fun hm => hk.1 ?_, ih hk.2 (fun y hy z hz => hinj y (by simp [hy]) z (by simp [hz]))⟩
    obtain ⟨y, hy, e⟩ := List.mem_map.1 hm
    exact List.mem_map.2 ⟨y, hy, hinj y (by simp [hy]) x (by simp) e⟩

theorem pick_step {cerr : Nat → Option E} {g : G K E} {v : View (Op K E) (Res' E) (Pt K E)} (h : Inv cerr g v) {i : Nat} {todo : List (K × Nat)}
    {be : BatchError E} (hv : v i = some (.close, .inl (.closing todo be))) {n : Nat} {x : K × Nat} (hx : todo[n]? = some x) :
    Inv cerr { g with log := g.log ++ [.closed x.2], closedBy := upd g.closedBy i (g.closedBy i ++ [x.2]) }
      (upd v i (some (.close, .inl (.closing (todo.eraseIdx n) (be.add (cerr x.2)))))) := by
  have hnd := fun l hl => nodup_snd h (l := l) hl
  have hperm : (x.2 :: (todo.eraseIdx n).map (·.2)).Perm (todo.map (·.2)) := by
    obtain ⟨hlt, rfl⟩ := List.getElem?_eq_some_iff.1 hx
    exact (List.getElem_cons_eraseIdx_perm hlt).map (·.2)
  obtain ⟨a1, a2, a3, a4, a5, a6, a7, a8, a9, a10, a11, a12, a13, a14, a15, a16, a17, a18, a19, a20, a21, a22⟩ := h
  obtain ⟨c1, c2, c3, c4, c5⟩ := a15 i todo be hv
  have hmem : x.2 ∈ todo.map (·.2) := hperm.subset (by simp)
  generalize hv' : upd v i _ = v'
  obtain ⟨u1, u2, u3⟩ := upd_facts hv'
  clear hv'
  constructor
  · clear * - hv c1 u1 u2 u3 a1; grind [Pt.lead, upd, held_append, closedLog_append]
  · clear * - hv c1 u1 u2 u3 a2; grind [Pt.lead, upd, held_append, closedLog_append]
  · clear * - hv c1 u1 u2 u3 a3; grind [Pt.lead, upd, held_append, closedLog_append]
  · clear * - hv c1 u1 u2 u3 a1 a2 a3 a4; grind [Pt.lead, upd, held_append, closedLog_append]
  · clear * - hv c1 u1 u2 u3 a2 a4 a5
    intro j k' f' x' o hj hc
    have := a5 j k' f' x' o
    cases o <;> simp only [OK] at this a5 ⊢ <;> grind [carries, upd, held_append, closedLog_append]
  · clear * - hv c1 u1 u2 u3 a1 a6; grind [Pt.lead, upd, held_append, closedLog_append]
  · clear * - hv c1 u1 u2 u3 a7; grind [Pt.lead, upd, held_append, closedLog_append]
  · clear * - hv c1 u1 u2 u3 a8; grind [Pt.lead, upd, held_append, closedLog_append]
  · clear * - hv c1 u1 u2 u3 a9; grind [Pt.lead, upd, held_append, closedLog_append]
  · clear * - hv c1 u1 u2 u3 a10; grind [Pt.lead, upd, held_append, closedLog_append]
  · clear * - hv c1 u1 u2 u3 a11; grind [Pt.lead, upd, held_append, closedLog_append]
  · clear * - hv u1 u2 u3 a12
    intro l' k' j l₁ l₂ hl' he hn
    rcases snoc_split he with ⟨rfl, rfl, e⟩ | ⟨l₂', rfl, he'⟩
    · grind
    · have := a12 l' k' j l₁ l₂' hl' he' (by grind)
      grind
  · clear * - hv a13 u1
    intro k' j j' l₁ l₂ l₃ hl' he
    rw [← List.cons_append, ← List.append_assoc] at he
    rcases snoc_split he with ⟨rfl, he', e⟩ | ⟨l₂', rfl, he'⟩
    · simp at e
    · exact a13 k' j j' l₁ l₂ l₂' hl' (by rw [he']; simp)
  · clear * - hv c1 u1 u2 u3 a14; grind [Pt.lead, upd, held_append, closedLog_append]
  · clear * - hv a15 c1 c2 c3 c4 c5 u1 u2 u3 hperm
    intro j todo' be' hj
    by_cases hji : j = i
    · subst hji
      rw [u1] at hj
      simp only [Option.some.injEq, Prod.mk.injEq, Sum.inl.injEq, Pt.closing.injEq, true_and] at hj
      obtain ⟨rfl, rfl⟩ := hj
      refine ⟨c1, c2, ?_, ?_, fun hr => ?_⟩
      · simp only [upd_same, List.append_assoc, List.singleton_append]
        exact (List.Perm.append_left _ hperm).trans c3
      · simp only [upd_same, List.map_append, List.map_cons, List.map_nil, addAll_snoc, c4]
      · simp only [upd_same, closedLog_append, c5 hr]
    · rw [u2 j hji] at hj
      have := (a15 j todo' be' hj).1
      rw [c1] at this; simp at this; exact absurd this.symm hji
  · clear * - hv c1 u1 u2 u3 a16; grind [Pt.lead, upd, held_append, closedLog_append]
  · clear * - hv c1 u1 u2 u3 a17; grind [Pt.lead, upd, held_append, closedLog_append]
  · intro _ h'; simp only [c1] at h'; simp at h'
  · clear * - hnd a19 c1 c2 c3 c5 hmem hperm
    simp only [closedLog_append]
    cases hres : g.res with
    | none =>
      rw [hres] at c2
      simp only [Option.getD_none] at c2
      rw [← c2] at c3
      have := List.Perm.length_eq c3
      have h0 : (todo.map (·.2)).length = 0 := by simp at this ⊢; exact this.2
      rw [List.length_eq_zero_iff] at h0
      rw [h0] at hmem; simp at hmem
    | some l =>
      have hn := hnd l hres
      rw [hres] at c2
      simp only [Option.getD_some] at c2
      rw [← c2] at c3
      rw [c5 (by simp [hres])]
      have := (c3.nodup_iff).2 hn
      have h2 := ((List.Perm.append_left (g.closedBy i) hperm).nodup_iff).2 this
      exact h2.sublist (by simp)
  · clear * - hv c1 u1 u2 u3 a20; grind [Pt.lead, upd, held_append, closedLog_append]
  · clear * - hv a21 u1 u2 u3
    intro j y hj hy
    have key : (∃ j' r, j' ≠ j ∧ v j' = some (Op.close, Sum.inr r)) ∨ ∀ (k : K) (r : ℕ), (k, r) ∈ g.heldAt j ↔ held k (g.logAt j) = some r := by
      by_cases hji : j = i
      · subst hji; exact a21 j _ hv (by simp)
      · rw [u2 j hji] at hj; exact a21 j y hj hy
    rcases key with ⟨j', r, h1, h2⟩ | h'
    · left
      have : j' ≠ i := by rintro rfl; rw [hv] at h2; simp at h2
      exact ⟨j', r, h1, by rw [u2 _ this]; exact h2⟩
    · exact Or.inr h'
  · clear * - hv c1 u1 u2 u3 a22; grind [Pt.lead, upd, held_append, closedLog_append]

theorem unlock_step {cerr : Nat → Option E} {g : G K E} {v : View (Op K E) (Res' E) (Pt K E)} (h : Inv cerr g v) {i : Nat} {be : BatchError E}
    (hv : v i = some (.close, .inl (.closing [] be))) :
    Inv cerr { g with res := none, wlock := none } (upd v i (some (.close, .inr (.closed be.err)))) := by
  obtain ⟨a1, a2, a3, a4, a5, a6, a7, a8, a9, a10, a11, a12, a13, a14, a15, a16, a17, a18, a19, a20, a21, a22⟩ := h
  obtain ⟨c1, c2, c3, c4, c5⟩ := a15 i [] be hv
  generalize hv' : upd v i _ = v'
  obtain ⟨u1, u2, u3⟩ := upd_facts hv'
  clear hv'
  constructor
  · clear * - hv c1 u1 u2 u3 a1; grind [Pt.lead]
  · clear * - hv c1 u1 u2 u3 a2; grind [Pt.lead]
  · clear * - hv c1 u1 u2 u3 a3; grind [Pt.lead]
  · clear * - hv c1 u1 u2 u3 a1 a2 a3 a4; grind [Pt.lead]
  · clear * - hv c1 u1 u2 u3 a2 a4 a5
    intro j k' f' x' o hj hc
    have := a5 j k' f' x' o
    cases o <;> simp only [OK] at this a5 ⊢ <;> grind [carries]
  · clear * - hv c1 u1 u2 u3 a1 a6; grind [Pt.lead]
  · clear * - hv c1 u1 u2 u3 a7; grind [Pt.lead]
  · clear * - hv c1 u1 u2 u3 a8; grind [Pt.lead]
  · clear * - hv c1 u1 u2 u3 a9; grind [Pt.lead]
  · clear * - hv c1 u1 u2 u3 a10; grind [Pt.lead]
  · clear * - hv c1 u1 u2 u3 a11; grind [Pt.lead]
  · clear * - hv c1 u1 u2 u3 a12; grind [Pt.lead]
  · clear * - hv c1 u1 u2 u3 a13; grind [Pt.lead]
  · clear * - hv c1 u1 u2 u3 a14; grind [Pt.lead]
  · clear * - hv c1 u1 u2 u3 a15 a17; grind [Pt.lead]
  · clear * - hv c1 u1 u2 u3 a16 c3 c4; grind [Pt.lead]
  · clear * - hv c1 u1 u2 u3 a17; grind [Pt.lead]
  · clear * - hv c1 u1 u2 u3 a18 a17; grind [Pt.lead]
  · clear * - hv c1 u1 u2 u3 a19; grind [Pt.lead]
  · clear * - hv c1 u1 u2 u3 a20; grind [Pt.lead]
  · clear * - hv a21 u1 u2 u3
    intro j y hj hy
    have key : (∃ j' r, j' ≠ j ∧ v j' = some (Op.close, Sum.inr r)) ∨ ∀ (k : K) (r : ℕ), (k, r) ∈ g.heldAt j ↔ held k (g.logAt j) = some r := by
      by_cases hji : j = i
      · subst hji; exact a21 j _ hv (by simp)
      · rw [u2 j hji] at hj; exact a21 j y hj hy
    rcases key with ⟨j', r, h1, h2⟩ | h'
    · left
      have : j' ≠ i := by rintro rfl; rw [hv] at h2; simp at h2
      exact ⟨j', r, h1, by rw [u2 _ this]; exact h2⟩
    · exact Or.inr h'
  · clear * - hv c1 u1 u2 u3 a22; grind [Pt.lead]

theorem inv_step {cerr : Nat → Option E} {g : G K E} {v : View (Op K E) (Res' E) (Pt K E)} (h : Inv cerr g v) {i : Nat} {op : Op K E} {s : Pt K E} {c : Nat}
    (hv : v i = some (op, .inl s)) {g' : G K E} {x : Pt K E ⊕ Res' E} (hs : (prog cerr).step g i op s c = some (g', x)) :
    Inv cerr g' (upd v i (some (op, x))) := by
  simp only [prog] at hs
  have hnone : ∀ {o : Option Nat}, ¬ (o.isSome = true) → o = none := by intro o ho; cases o <;> simp_all
  cases op with
  | get k f =>
    simp only at hs
    unfold getStep at hs
    split at hs
    · split at hs <;> simp only [Option.some.injEq, Prod.mk.injEq] at hs <;> obtain ⟨rfl, rfl⟩ := hs
      · exact start_join h hv (by assumption)
      · exact start_lead h hv (by assumption)
    · split at hs
      · simp only [Option.some.injEq, Prod.mk.injEq] at hs; obtain ⟨rfl, rfl⟩ := hs
        exact wait_step h hv (by assumption)
      · simp at hs
    · split at hs
      · simp at hs
      · split at hs <;> simp only [Option.some.injEq, Prod.mk.injEq] at hs <;> obtain ⟨rfl, rfl⟩ := hs
        · rename_i hr
          cases hres : g.res with
          | none => rw [hres] at hr; simp at hr
          | some l => rw [hres] at hr; exact lookup_found h hv hres hr
        · rename_i hr
          exact lookup_absent h hv (fun l hl => by rw [hl] at hr; exact hr)
    · split at hs <;> simp only [Option.some.injEq, Prod.mk.injEq] at hs <;> obtain ⟨rfl, rfl⟩ := hs
      · exact create_failed h hv
      · exact create_ok h hv
    · split at hs
      · simp at hs
      · rename_i hw
        split at hs <;> simp only [Option.some.injEq, Prod.mk.injEq] at hs <;> obtain ⟨rfl, rfl⟩ := hs
        · exact store_panic h hv (by assumption) (hnone hw)
        · exact store_ok h hv (by assumption) (hnone hw)
    · simp only [Option.some.injEq, Prod.mk.injEq] at hs; obtain ⟨rfl, rfl⟩ := hs
      exact finish_step h hv
    · simp only [Option.some.injEq, Prod.mk.injEq] at hs; obtain ⟨rfl, rfl⟩ := hs
      exact drop_step h hv
    · simp at hs
  | remove k =>
    simp only at hs
    unfold removeStep at hs
    split at hs
    · split at hs
      · simp at hs
      · rename_i hw
        split at hs
        · simp only [Option.some.injEq, Prod.mk.injEq] at hs; obtain ⟨rfl, rfl⟩ := hs
          exact remove_absent h hv
        · split at hs <;> simp only [Option.some.injEq, Prod.mk.injEq] at hs <;> obtain ⟨rfl, rfl⟩ := hs
          · exact remove_found h hv (by assumption) (by assumption) (hnone hw)
          · exact remove_absent h hv
    · simp at hs
  | close =>
    simp only at hs
    unfold closeStep at hs
    split at hs
    · split at hs
      · simp at hs
      · rename_i hw
        simp only [Option.some.injEq, Prod.mk.injEq] at hs; obtain ⟨rfl, rfl⟩ := hs
        exact lock_step h hv (hnone hw)
    · split at hs
      · simp only [Option.some.injEq, Prod.mk.injEq] at hs; obtain ⟨rfl, rfl⟩ := hs
        exact unlock_step h hv
      · split at hs
        · simp at hs
        · simp only [Option.some.injEq, Prod.mk.injEq] at hs; obtain ⟨rfl, rfl⟩ := hs
          exact pick_step h hv (by assumption)
    · simp at hs

/-- The invariant holds in every reachable state. -/
theorem inv_exec (cerr : Nat → Option E) {m : Conf (G K E) (Op K E) (Res' E) (Pt K E)} {H : List (Ev (Op K E) (Res' E))}
    (h : (prog cerr).mach.Exec m H) : Inv cerr m.g m.view := by
  refine (prog cerr).induct (fun g v _ => Inv cerr g v) (inv_init cerr) ?_ ?_ ?_ h
  · intro g v H i op hi hv; exact inv_inv hi i op hv
  · intro g v H i op s c g' x hi hv hs; exact inv_step hi hv hs
  · intro g v H i op r hi _; exact hi

end Verif.XSync.ResMan

import Verif.XSync.ResManMem
import Verif.XSync.ResManProps
import Verif.Conc.Refine
/-! # The resource manager has no data races, and its critical sections are atomic (C113) -/
namespace Verif.XSync.ResManMem
open Verif.Conc Verif.XError Verif.XSync.ResMan

variable {K E : Type} [DecidableEq K]

/-- Abbreviation. -/
abbrev VM (K E : Type) := View (Op K E) (Res' E) (Pt K E)

/-- Points at which the call holds the lock for writing. -/
def wr : Pt K E ⊕ Res' E → Bool
  | .inl .storeField | .inl .storeMap | .inl .storeUnlock | .inl .rmField | .inl .rmGet | .inl .rmField2 | .inl .rmDel | .inl (.rmUnlock _)
  | .inl .clField | .inl (.clNext _ _) | .inl (.clCall _ _ _) | .inl (.clSet _) | .inl (.clUnlock _) => true
  | _ => false

/-- Points at which the call holds the lock for reading. -/
def rd : Pt K E ⊕ Res' E → Bool
  | .inl .getField | .inl .getMap | .inl (.runlock _) => true
  | _ => false

/-- Points at which the write lock is held, but not in the model with atomic critical sections. -/
def short : Option (Op K E × (Pt K E ⊕ Res' E)) → Bool
  | some (_, .inl .storeField) | some (_, .inl .storeMap) | some (_, .inl .storeUnlock) | some (_, .inl .rmField) | some (_, .inl .rmGet)
  | some (_, .inl .rmField2) | some (_, .inl .rmDel) | some (_, .inl (.rmUnlock _)) | some (_, .inl (.clUnlock _)) => true
  | _ => false

/-- What a call knows about the memory in its critical section. -/
def Fact (M : Mem K E) : Op K E → Pt K E ⊕ Res' E → Prop
  | .get _ _, .inl .getMap | .get _ _, .inl .storeMap => M.field = true
  | .remove _, .inl .rmGet => M.field = true
  | .remove k, .inl .rmField2 | .remove k, .inl .rmDel => M.field = true ∧ (find M.map k).isSome = true
  | .close, .inl (.clNext _ _) => M.field = true
  | .close, .inl (.clCall x seen _) => M.field = true ∧ x ∈ rest M.map seen
  | _, _ => True

theorem Fact.held {M : Mem K E} {op : Op K E} {x : Pt K E ⊕ Res' E} (h : wr x = false) (h' : rd x = false) : Fact M op x := by
  unfold Fact
  split <;> simp_all [wr, rd]

/-- Proof only: part of an invariant or simulation; models no code. -/
structure LInv (M : Mem K E) (v : VM K E) : Prop where
  wr : ∀ i op x, v i = some (op, x) → wr x = true → M.writer = some i
  rd : ∀ i op x, v i = some (op, x) → rd x = true → i ∈ M.readers
  excl : M.writer ≠ none → M.readers = []
  fact : ∀ i op x, v i = some (op, x) → Fact M op x

theorem LInv.upd {M M' : Mem K E} {v : VM K E} (h : LInv M v) {i : Nat} {op : Op K E} {x : Pt K E ⊕ Res' E}
    (h1 : ResManMem.wr x = true → M'.writer = some i) (h2 : ∀ j, j ≠ i → M.writer = some j → M'.writer = some j)
    (h3 : ResManMem.rd x = true → i ∈ M'.readers) (h4 : ∀ j, j ≠ i → j ∈ M.readers → j ∈ M'.readers) (h5 : M'.writer ≠ none → M'.readers = [])
    (h6 : Fact M' op x) (h7 : (M'.field = M.field ∧ M'.map = M.map) ∨ M.writer = some i) : LInv M' (upd v i (some (op, x))) := by
  constructor
  · intro j op' x' hv hw
    by_cases hj : j = i
    · subst hj; simp only [upd_same, Option.some.injEq, Prod.mk.injEq] at hv; rw [← hv.2] at hw; exact h1 hw
    · rw [upd_ne _ _ hj] at hv; exact h2 j hj (h.wr j op' x' hv hw)
  · intro j op' x' hv hw
    by_cases hj : j = i
    · subst hj; simp only [upd_same, Option.some.injEq, Prod.mk.injEq] at hv; rw [← hv.2] at hw; exact h3 hw
    · rw [upd_ne _ _ hj] at hv; exact h4 j hj (h.rd j op' x' hv hw)
  · exact h5
  · intro j op' x' hv
    by_cases hj : j = i
    · subst hj; simp only [upd_same, Option.some.injEq, Prod.mk.injEq] at hv; obtain ⟨rfl, rfl⟩ := hv; exact h6
    · rw [upd_ne _ _ hj] at hv
      rcases h7 with ⟨e1, e2⟩ | h7
      · have := h.fact j op' x' hv
        unfold Fact at this ⊢
        rw [e1, e2]; exact this
      · apply Fact.held
        · cases hw : ResManMem.wr x' with
          | false => rfl
          | true => have := h.wr j op' x' hv hw; rw [h7] at this; simp only [Option.some.injEq] at this; exact absurd this.symm hj
        · cases hw : ResManMem.rd x' with
          | false => rfl
          | true => have := h.rd j op' x' hv hw; rw [h.excl (by simp [h7])] at this; simp at this

theorem linv_step {cerr : Nat → Option E} {M M' : Mem K E} {v : VM K E} (h : LInv M v) {i : Nat} {op : Op K E} {s : Pt K E} {c : Nat}
    {x : Pt K E ⊕ Res' E} (hv : v i = some (op, .inl s)) (hs : (prog cerr).step M i op s c = some (M', x)) : LInv M' (upd v i (some (op, x))) := by
  have hw := h.wr i op _ hv
  have hr := h.rd i op _ hv
  have hf := h.fact i op _ hv
  have hwr : ∀ j, j ≠ i → M.writer = some i → M.writer ≠ some j := fun j hj e => by rw [e]; simp [Ne.symm hj]
  have hx := h.excl
  cases op with
  | get k fail =>
    cases s <;> simp only [prog, getStep, reduceCtorEq] at hs
    all_goals (try split at hs)
    all_goals (simp only [Option.some.injEq, Prod.mk.injEq, reduceCtorEq] at hs)
    all_goals (obtain ⟨rfl, rfl⟩ := hs)
    all_goals (refine h.upd ?_ ?_ ?_ ?_ ?_ ?_ ?_)
    all_goals (simp_all [wr, rd, Fact])
  | remove k =>
    cases s <;> simp only [prog, removeStep, reduceCtorEq] at hs
    all_goals (try split at hs)
    all_goals (simp only [Option.some.injEq, Prod.mk.injEq, reduceCtorEq] at hs)
    all_goals (obtain ⟨rfl, rfl⟩ := hs)
    all_goals (refine h.upd ?_ ?_ ?_ ?_ ?_ ?_ ?_)
    all_goals (simp_all [wr, rd, Fact])
  | close =>
    cases s <;> simp only [prog, closeStep, reduceCtorEq] at hs
    all_goals (try split at hs)
    all_goals (try split at hs)
    all_goals (simp only [Option.some.injEq, Prod.mk.injEq, reduceCtorEq] at hs)
    all_goals (obtain ⟨rfl, rfl⟩ := hs)
    all_goals (refine h.upd ?_ ?_ ?_ ?_ ?_ ?_ ?_)
    all_goals (try (simp_all [wr, rd, Fact]; done))
    all_goals exact ⟨hf, List.mem_of_getElem? (by assumption)⟩

theorem linv_inv {M : Mem K E} {v : VM K E} (h : LInv M v) {i : Nat} {op : Op K E} {s : Pt K E} 
    (hs : wr (.inl s : Pt K E ⊕ Res' E) = false) (hs' : rd (.inl s : Pt K E ⊕ Res' E) = false) : LInv M (upd v i (some (op, .inl s))) :=
  h.upd (by simp [hs]) (fun _ _ h => h) (by simp [hs']) (fun _ _ h => h) h.excl (.held hs hs') (.inl ⟨rfl, rfl⟩)

/-! ## The model with atomic critical sections -/

/-- The same point in `ResMan`. -/
def absX (field : Bool) (map : List (K × Nat)) (i : Nat) : Pt K E ⊕ Res' E → ResMan.Pt K E ⊕ Res' E
  | .inr r => .inr r
  | .inl s => match s with
    | .start => .inl .start
    | .wait l => .inl (.wait l)
    | .rlock | .getField | .getMap => .inl .lookup
    | .runlock (some r) => .inl (.finish (.got r))
    | .runlock none => .inl .create
    | .create => .inl .create
    | .storeLock | .storeField | .storeMap => .inl .store
    | .storeUnlock => .inl (.finish (.got i))
    | .finish o => .inl (.finish o)
    | .drop o => .inl (.drop o)
    | .rmLock | .rmField | .rmGet | .rmField2 | .rmDel => .inl .remove
    | .rmUnlock b => .inr (.removed b)
    | .clLock => .inl .lock
    | .clField => .inl (.closing (if field then map else []) .zero)
    | .clNext seen be | .clCall _ seen be => .inl (.closing (rest map seen) be)
    | .clSet be => .inl (.closing [] be)
    | .clUnlock be => .inr (.closed be.err)

/-- Proof only: the calls, as calls of the coarser program of ResMan.lean. -/
def absV (M : Mem K E) (v : VM K E) : View (Op K E) (Res' E) (ResMan.Pt K E) := fun i => (v i).map fun y => (y.1, absX M.field M.map i y.2)

/-- Proof only: the holder of the lock in the coarser program. -/
def absW (M : Mem K E) (v : VM K E) : Option Nat := M.writer.bind fun i => if short (v i) then none else some i

/-- Proof only: the shared state of the coarser program. -/
def absG (M : Mem K E) (w : Option Nat) : G K E :=
  ⟨if M.field then some M.map else none, w, M.flight, M.fin, M.log, M.heldAt, M.closedBy, M.logAt, M.remBy⟩

theorem absV_upd {M M' : Mem K E} {v : VM K E} (h : LInv M v) {i : Nat} {op : Op K E} {x : Pt K E ⊕ Res' E}
    (h7 : (M'.field = M.field ∧ M'.map = M.map) ∨ M.writer = some i) :
    absV M' (upd v i (some (op, x))) = upd (absV M v) i (some (op, absX M'.field M'.map i x)) := by
  funext j
  by_cases hj : j = i
  · subst hj; simp [absV]
  · rw [upd_ne _ _ hj]
    simp only [absV, upd_ne _ _ hj]
    rcases h7 with ⟨e1, e2⟩ | h7
    · rw [e1, e2]
    · cases hv : v j with
      | none => rfl
      | some y =>
        obtain ⟨o, y⟩ := y
        have hw : wr y = false := by
          cases hw : wr y with
          | false => rfl
          | true => have := h.wr j o y hv hw; rw [h7] at this; simp only [Option.some.injEq] at this; exact absurd this.symm hj
        simp only [Option.map_some, Option.some.injEq, Prod.mk.injEq, true_and]
        cases y with
        | inr r => rfl
        | inl s => cases s <;> simp [wr] at hw <;> first | rfl | (rename_i r; cases r <;> rfl)

omit [DecidableEq K] in
theorem absW_same {M M' : Mem K E} {v : VM K E} {i : Nat} {y : Option (Op K E × (Pt K E ⊕ Res' E))} (h : M'.writer = M.writer)
    (hy : short y = short (v i)) : absW M' (upd v i y) = absW M v := by
  unfold absW
  rw [h]
  cases M.writer with
  | none => rfl
  | some j =>
    by_cases hj : j = i
    · subst hj; simp [hy]
    · simp [upd_ne _ _ hj]

theorem eraseIdx_keys {l : List (K × Nat)} (hn : (l.map (·.1)).Nodup) {n : Nat} {x : K × Nat} (h : l[n]? = some x) :
    l.eraseIdx n = l.filter fun y => decide (y.1 ≠ x.1) := by
  induction l generalizing n with
  | nil => simp at h
  | cons a l ih =>
    simp only [List.map_cons, List.nodup_cons, List.mem_map, not_exists, not_and] at hn
    cases n with
    | zero =>
      simp only [List.getElem?_cons_zero, Option.some.injEq] at h
      subst h
      rw [List.eraseIdx_zero, List.tail_cons, List.filter_cons_of_neg (by simp)]
      symm
      rw [List.filter_eq_self]
      intro y hy
      simpa using hn.1 y hy
    | succ n =>
      simp only [List.getElem?_cons_succ] at h
      rw [List.eraseIdx_cons_succ, ih hn.2 h, List.filter_cons_of_pos]
      have := hn.1 x (List.mem_of_getElem? h)
      simpa using fun e => this e.symm

theorem rest_next {l : List (K × Nat)} (hn : (l.map (·.1)).Nodup) {seen : List K} {n : Nat} {x : K × Nat} (h : (rest l seen)[n]? = some x) :
    (rest l seen).eraseIdx n = rest l (seen ++ [x.1]) := by
  unfold rest at h ⊢
  rw [eraseIdx_keys (hn.sublist (List.filter_sublist.map _)) h, List.filter_filter]
  apply List.filter_congr
  intro y _
  simp [and_comm, Bool.and_comm]

/-- Only a writer changes the map. -/
theorem step_mem {cerr : Nat → Option E} {M M' : Mem K E} {v : VM K E} (h : LInv M v) {i : Nat} {op : Op K E} {s : Pt K E} {c : Nat}
    {x : Pt K E ⊕ Res' E} (hv : v i = some (op, .inl s)) (hs : (prog cerr).step M i op s c = some (M', x)) :
    (M'.field = M.field ∧ M'.map = M.map) ∨ M.writer = some i := by
  have hw := h.wr i op _ hv
  cases op with
  | get k fail =>
    cases s <;> simp only [prog, getStep, reduceCtorEq] at hs
    all_goals (try split at hs)
    all_goals (simp only [Option.some.injEq, Prod.mk.injEq, reduceCtorEq] at hs)
    all_goals (obtain ⟨rfl, rfl⟩ := hs)
    all_goals (simp_all [wr])
  | remove k =>
    cases s <;> simp only [prog, removeStep, reduceCtorEq] at hs
    all_goals (try split at hs)
    all_goals (simp only [Option.some.injEq, Prod.mk.injEq, reduceCtorEq] at hs)
    all_goals (obtain ⟨rfl, rfl⟩ := hs)
    all_goals (simp_all [wr])
  | close =>
    cases s <;> simp only [prog, closeStep, reduceCtorEq] at hs
    all_goals (try split at hs)
    all_goals (try split at hs)
    all_goals (simp only [Option.some.injEq, Prod.mk.injEq, reduceCtorEq] at hs)
    all_goals (obtain ⟨rfl, rfl⟩ := hs)
    all_goals (simp_all [wr])

/-- Proof only: part of an invariant or simulation; models no code. -/
def Rel (M : Mem K E) (g : G K E) (v : VM K E) (w : View (Op K E) (Res' E) (ResMan.Pt K E)) : Prop :=
  g = absG M (absW M v) ∧ w = absV M v ∧ LInv M v

theorem rel_step {cerr : Nat → Option E} {M : Mem K E} {m' : Conf (G K E) (Op K E) (Res' E) (ResMan.Pt K E)} {H : List (Ev (Op K E) (Res' E))}
    {v : VM K E} {i : Nat} {op : Op K E} {t : Pt K E} {c : Nat} {M' : Mem K E} {x : Pt K E ⊕ Res' E} (he : (ResMan.prog cerr).mach.Exec m' H)
    (hR : Rel M m'.g v m'.view) (hv : v i = some (op, .inl t)) (hs : (prog cerr).step M i op t c = some (M', x)) :
    Rel M' m'.g (upd v i (some (op, x))) m'.view ∨
      ∃ s c' g' x', m'.view i = some (op, .inl s) ∧ (ResMan.prog cerr).step m'.g i op s c' = some (g', x') ∧
        Rel M' g' (upd v i (some (op, x))) (upd m'.view i (some (op, x'))) := by
  obtain ⟨h1, h2, h3⟩ := hR
  have hl := linv_step h3 hv hs
  have hV := absV_upd (op := op) (x := x) h3 (step_mem h3 hv hs)
  have hvi : absV M v i = some (op, absX M.field M.map i (.inl t)) := by simp [absV, hv]
  have stay : absX M'.field M'.map i x = absX M.field M.map i (.inl t) → absG M' (absW M' (upd v i (some (op, x)))) = absG M (absW M v) →
      Rel M' m'.g (upd v i (some (op, x))) m'.view := by
    intro e1 e2
    refine ⟨by rw [h1, e2], ?_, hl⟩
    rw [hV, h2, e1, ← hvi]
    funext j
    by_cases hj : j = i
    · subst hj; simp
    · simp [upd_ne _ _ hj]
  have go : ∀ s c', absX M.field M.map i (.inl t) = .inl s →
      (ResMan.prog cerr).step (absG M (absW M v)) i op s c' = some (absG M' (absW M' (upd v i (some (op, x)))), absX M'.field M'.map i x) →
      ∃ s c' g' x', m'.view i = some (op, .inl s) ∧ (ResMan.prog cerr).step m'.g i op s c' = some (g', x') ∧
        Rel M' g' (upd v i (some (op, x))) (upd m'.view i (some (op, x'))) := by
    intro s c' e1 e2
    exact ⟨s, c', _, _, by rw [h2, hvi, e1], by rw [h1]; exact e2, rfl, by rw [hV, h2], hl⟩
  have hw := h3.wr i op _ hv
  have hr := h3.rd i op _ hv
  have hf := h3.fact i op _ hv
  have hread : i ∈ M.readers → absW M v = none := by
    intro hm
    cases hwr : M.writer with
    | none => simp [absW, hwr]
    | some j => rw [h3.excl (by simp [hwr])] at hm; simp at hm
  have same : M'.writer = M.writer → short (some (op, x)) = short (v i) → absW M' (upd v i (some (op, x))) = absW M v := absW_same
  cases op with
  | get k fail =>
    cases t <;> simp only [prog, getStep, reduceCtorEq] at hs
    case start =>
      split at hs
      all_goals
        rename_i hfl
        simp only [Option.some.injEq, Prod.mk.injEq] at hs
        obtain ⟨rfl, rfl⟩ := hs
        exact .inr (go .start 0 rfl (by rw [same rfl (by simp [hv, short])]; simp [ResMan.prog, ResMan.getStep, absG, hfl, absX]))
    case wait l =>
      split at hs
      · rename_i o hfl
        simp only [Option.some.injEq, Prod.mk.injEq] at hs
        obtain ⟨rfl, rfl⟩ := hs
        exact .inr (go (.wait l) 0 rfl (by rw [same rfl (by simp [hv, short])]; simp [ResMan.prog, ResMan.getStep, absG, hfl, absX]))
      · simp at hs
    case rlock =>
      split at hs
      · simp at hs
      · simp only [Option.some.injEq, Prod.mk.injEq] at hs
        obtain ⟨rfl, rfl⟩ := hs
        exact .inl (stay rfl (by rw [same rfl (by simp [hv, short])]; rfl))
    case getField =>
      cases hfd : M.field with
      | true =>
        simp only [hfd, if_true, Option.some.injEq, Prod.mk.injEq] at hs; obtain ⟨rfl, rfl⟩ := hs
        exact .inl (stay rfl (by rw [same rfl (by simp [hv, short])]))
      | false =>
        have hn := hread (hr rfl)
        simp only [hfd, Bool.false_eq_true, if_false, Option.some.injEq, Prod.mk.injEq] at hs; obtain ⟨rfl, rfl⟩ := hs
        refine .inr (go .lookup 0 rfl ?_)
        rw [same rfl (by simp [hv, short])]
        simp [ResMan.prog, ResMan.getStep, absG, hfd, absX, hn]
    case getMap =>
      simp only [Option.some.injEq, Prod.mk.injEq] at hs
      obtain ⟨rfl, rfl⟩ := hs
      have hn := hread (hr rfl)
      have hfd : M.field = true := hf
      refine .inr (go .lookup 0 rfl ?_)
      rw [same rfl (by simp [hv, short])]
      cases hfi : find M.map k <;> simp [ResMan.prog, ResMan.getStep, absG, hfd, absX, hn, hfi]
    case runlock r =>
      cases r <;> simp only [Option.some.injEq, Prod.mk.injEq] at hs <;> obtain ⟨rfl, rfl⟩ := hs <;>
        exact .inl (stay rfl (by rw [same rfl (by simp [hv, short])]; rfl))
    case create =>
      cases fail <;> simp only [Option.some.injEq, Prod.mk.injEq] at hs <;> obtain ⟨rfl, rfl⟩ := hs <;>
        exact .inr (go .create 0 rfl (by rw [same rfl (by simp [hv, short])]; simp [ResMan.prog, ResMan.getStep, absG, absX]))
    case storeLock =>
      split at hs
      · simp at hs
      · rename_i hfr
        simp only [Bool.or_eq_true, Option.isSome_iff_ne_none, not_or, ne_eq, Classical.not_not] at hfr
        simp only [Option.some.injEq, Prod.mk.injEq] at hs
        obtain ⟨rfl, rfl⟩ := hs
        exact .inl (stay rfl (by simp [absW, hfr.1, short, absG]))
    case storeField =>
      have hwi := hw rfl
      cases hfd : M.field with
      | true =>
        simp only [hfd, if_true, Option.some.injEq, Prod.mk.injEq] at hs; obtain ⟨rfl, rfl⟩ := hs
        exact .inl (stay rfl (by rw [same rfl (by simp [hv, short])]))
      | false =>
        simp only [hfd, Bool.false_eq_true, if_false, Option.some.injEq, Prod.mk.injEq] at hs; obtain ⟨rfl, rfl⟩ := hs
        refine .inr (go .store 0 rfl ?_)
        simp [ResMan.prog, ResMan.getStep, absG, hfd, absX, absW, hwi, hv, short]
    case storeMap =>
      simp only [Option.some.injEq, Prod.mk.injEq] at hs
      obtain ⟨rfl, rfl⟩ := hs
      have hwi := hw rfl
      have hfd : M.field = true := hf
      refine .inr (go .store 0 rfl ?_)
      simp [ResMan.prog, ResMan.getStep, absG, hfd, absX, absW, hwi, hv, short]
    case storeUnlock =>
      simp only [Option.some.injEq, Prod.mk.injEq] at hs
      obtain ⟨rfl, rfl⟩ := hs
      have hwi := hw rfl
      exact .inl (stay rfl (by simp [absW, hwi, hv, short, absG]))
    case finish o =>
      simp only [Option.some.injEq, Prod.mk.injEq] at hs
      obtain ⟨rfl, rfl⟩ := hs
      exact .inr (go (.finish o) 0 rfl (by rw [same rfl (by simp [hv, short])]; simp [ResMan.prog, ResMan.getStep, absG, absX]))
    case drop o =>
      simp only [Option.some.injEq, Prod.mk.injEq] at hs
      obtain ⟨rfl, rfl⟩ := hs
      exact .inr (go (.drop o) 0 rfl (by rw [same rfl (by simp [hv, short])]; simp [ResMan.prog, ResMan.getStep, absG, absX]))
  | remove k =>
    cases t <;> simp only [prog, removeStep, reduceCtorEq] at hs
    case rmLock =>
      split at hs
      · simp at hs
      · rename_i hfr
        simp only [Bool.or_eq_true, Option.isSome_iff_ne_none, not_or, ne_eq, Classical.not_not] at hfr
        simp only [Option.some.injEq, Prod.mk.injEq] at hs
        obtain ⟨rfl, rfl⟩ := hs
        exact .inl (stay rfl (by simp [absW, hfr.1, short, absG]))
    case rmField =>
      have hwi := hw rfl
      cases hfd : M.field with
      | true =>
        simp only [hfd, if_true, Option.some.injEq, Prod.mk.injEq] at hs; obtain ⟨rfl, rfl⟩ := hs
        exact .inl (stay rfl (by rw [same rfl (by simp [hv, short])]))
      | false =>
        simp only [hfd, Bool.false_eq_true, if_false, Option.some.injEq, Prod.mk.injEq] at hs; obtain ⟨rfl, rfl⟩ := hs
        refine .inr (go .remove 0 rfl ?_)
        simp [ResMan.prog, ResMan.removeStep, absG, hfd, absX, absW, hwi, hv, short]
    case rmGet =>
      have hwi := hw rfl
      have hfd : M.field = true := hf
      cases hfi : find M.map k with
      | some r =>
        simp only [hfi, Option.isSome_some, if_true, Option.some.injEq, Prod.mk.injEq] at hs; obtain ⟨rfl, rfl⟩ := hs
        exact .inl (stay rfl (by rw [same rfl (by simp [hv, short])]))
      | none =>
        simp only [hfi, Option.isSome_none, Bool.false_eq_true, if_false, Option.some.injEq, Prod.mk.injEq] at hs; obtain ⟨rfl, rfl⟩ := hs
        refine .inr (go .remove 0 rfl ?_)
        simp [ResMan.prog, ResMan.removeStep, absG, hfd, absX, absW, hwi, hv, short, hfi]
    case rmField2 =>
      have hfd : M.field = true := hf.1
      simp only [hfd, if_true, Option.some.injEq, Prod.mk.injEq] at hs; obtain ⟨rfl, rfl⟩ := hs
      exact .inl (stay rfl (by rw [same rfl (by simp [hv, short])]))
    case rmDel =>
      have hwi := hw rfl
      have hfd : M.field = true := hf.1
      split at hs
      · rename_i r hfi
        simp only [Option.some.injEq, Prod.mk.injEq] at hs
        obtain ⟨rfl, rfl⟩ := hs
        refine .inr (go .remove 0 rfl ?_)
        simp [ResMan.prog, ResMan.removeStep, absG, hfd, absX, absW, hwi, hv, short, hfi]
      · rename_i hfi
        have := hf.2
        rw [hfi] at this; simp at this
    case rmUnlock b =>
      simp only [Option.some.injEq, Prod.mk.injEq] at hs
      obtain ⟨rfl, rfl⟩ := hs
      have hwi := hw rfl
      exact .inl (stay rfl (by simp [absW, hwi, hv, short, absG]))
  | close =>
    cases t <;> simp only [prog, closeStep, reduceCtorEq] at hs
    case clLock =>
      split at hs
      · simp at hs
      · rename_i hfr
        simp only [Bool.or_eq_true, Option.isSome_iff_ne_none, not_or, ne_eq, Classical.not_not] at hfr
        simp only [Option.some.injEq, Prod.mk.injEq] at hs
        obtain ⟨rfl, rfl⟩ := hs
        refine .inr (go .lock 0 rfl ?_)
        cases hfd : M.field <;> simp [ResMan.prog, ResMan.closeStep, absG, absX, absW, hfr.1, short, Mem.held, hfd]
    case clField =>
      cases hfd : M.field with
      | true =>
        simp only [hfd, if_true, Option.some.injEq, Prod.mk.injEq] at hs; obtain ⟨rfl, rfl⟩ := hs
        exact .inl (stay (by simp [absX, rest, hfd]) (by rw [same rfl (by simp [hv, short])]))
      | false =>
        simp only [hfd, Bool.false_eq_true, if_false, Option.some.injEq, Prod.mk.injEq] at hs; obtain ⟨rfl, rfl⟩ := hs
        exact .inl (stay (by simp [absX, hfd]) (by rw [same rfl (by simp [hv, short])]))
    case clNext seen be =>
      split at hs
      · rename_i hre
        simp only [Option.some.injEq, Prod.mk.injEq] at hs
        obtain ⟨rfl, rfl⟩ := hs
        exact .inl (stay (by simp [absX, hre]) (by rw [same rfl (by simp [hv, short])]))
      · split at hs
        · simp at hs
        · simp only [Option.some.injEq, Prod.mk.injEq] at hs
          obtain ⟨rfl, rfl⟩ := hs
          exact .inl (stay rfl (by rw [same rfl (by simp [hv, short])]))
    case clCall y seen be =>
      simp only [Option.some.injEq, Prod.mk.injEq] at hs
      obtain ⟨rfl, rfl⟩ := hs
      obtain ⟨hfd, hmem⟩ : M.field = true ∧ y ∈ rest M.map seen := hf
      obtain ⟨n, hn, hny⟩ := List.getElem_of_mem hmem
      have hny' : (rest M.map seen)[n]? = some y := by rw [List.getElem?_eq_getElem hn, hny]
      have hkeys := (inv_exec cerr he).keys M.map (by rw [h1]; simp [absG, hfd])
      have hnext := rest_next hkeys hny'
      refine .inr (go (.closing (rest M.map seen) be) n rfl ?_)
      rw [same rfl (by simp [hv, short])]
      have hne : rest M.map seen ≠ [] := by intro e; rw [e] at hmem; simp at hmem
      have hmod : n % (rest M.map seen).length = n := Nat.mod_eq_of_lt hn
      cases hl0 : rest M.map seen with
      | nil => exact absurd hl0 hne
      | cons a l =>
        rw [hl0] at hmod hny' hnext
        simp only [ResMan.prog, ResMan.closeStep, hmod, hny', hnext, absX, absG]
    case clSet be =>
      simp only [Option.some.injEq, Prod.mk.injEq] at hs
      obtain ⟨rfl, rfl⟩ := hs
      have hwi := hw rfl
      refine .inr (go (.closing [] be) 0 rfl ?_)
      simp [ResMan.prog, ResMan.closeStep, absG, absX, absW, hwi, short]
    case clUnlock be =>
      simp only [Option.some.injEq, Prod.mk.injEq] at hs
      obtain ⟨rfl, rfl⟩ := hs
      have hwi := hw rfl
      exact .inl (stay rfl (by simp [absW, hwi, hv, short, absG]))

theorem rel_exec {cerr : Nat → Option E} {m : Conf (Mem K E) (Op K E) (Res' E) (Pt K E)} {H : List (Ev (Op K E) (Res' E))}
    (h : (prog cerr).mach.Exec m H) :
    ∃ m' : Conf (G K E) (Op K E) (Res' E) (ResMan.Pt K E), (ResMan.prog cerr).mach.Exec m' H ∧ Rel m.g m'.g m.view m'.view := by
  refine (prog cerr).refine (ResMan.prog cerr) Rel ?_ ?_ ?_ ?_ ?_ h
  · refine ⟨rfl, rfl, ⟨?_, ?_, ?_, ?_⟩⟩ <;> simp [prog, new]
  · rintro M g v w i ⟨_, rfl, _⟩ hv; simp [absV, hv]
  · rintro M g v w i op r ⟨_, rfl, _⟩ hv; simp [absV, hv, absX]
  · rintro M m' H v i op he ⟨h1, h2, h3⟩ hv
    have hl : LInv M (upd v i (some (op, .inl ((prog cerr).begin op)))) := linv_inv h3 (by cases op <;> rfl) (by cases op <;> rfl)
    refine ⟨?_, ?_, hl⟩
    · rw [h1, absW_same (M := M) rfl]; rw [hv]; cases op <;> rfl
    · rw [h2]; funext j
      by_cases hj : j = i
      · subst hj; simp only [absV, upd_same, Option.map_some]; cases op <;> rfl
      · simp [absV, upd_ne _ _ hj]
  · intro M m' H v i op t c M' x he hR hv hs
    exact rel_step he hR hv hs

/-- **C113.** The critical sections of the manager are atomic: whatever calls on one manager do when every operation on the lock and every access to
the field and the map is a step of its own, they also do in the model of C30 in which critical sections are single steps: the same calls with the
same results, the same creations, additions, removals and closings in the same order, and the same entries removed by the same calls. -/
theorem C113_resman_atomic {cerr : Nat → Option E} {m : Conf (Mem K E) (Op K E) (Res' E) (Pt K E)} {H : List (Ev (Op K E) (Res' E))}
    (h : (prog cerr).mach.Exec m H) :
    ∃ m' : Conf (G K E) (Op K E) (Res' E) (ResMan.Pt K E), (ResMan.prog cerr).mach.Exec m' H ∧ m'.g.log = m.g.log ∧ m'.g.remBy = m.g.remBy ∧
      (∀ i, m'.g.closedBy i = m.g.closedBy i) ∧ m'.g.res = if m.g.field then some m.g.map else none := by
  obtain ⟨m', h1, h2, _⟩ := rel_exec h
  exact ⟨m', h1, by rw [h2]; rfl, by rw [h2]; rfl, by rw [h2]; intro i; rfl, by rw [h2]; rfl⟩

omit [DecidableEq K] in
theorem access_held {s : Pt K E} {l : Loc} {w : Bool} (h : s.access = some (l, w)) :
    wr (.inl s : Pt K E ⊕ Res' E) = true ∨ w = false ∧ rd (.inl s : Pt K E ⊕ Res' E) = true := by
  cases s <;> simp_all [Pt.access, wr, rd]

/-- **C113.** No data races: when two calls are about to access the same location, both are about to read it. -/
theorem C113_resman_no_race {cerr : Nat → Option E} {m : Conf (Mem K E) (Op K E) (Res' E) (Pt K E)} {H : List (Ev (Op K E) (Res' E))}
    (h : (prog cerr).mach.Exec m H) {i j : Nat} (hij : i ≠ j) {op op' : Op K E} {s s' : Pt K E} (hi : m.pc i = .at op s) (hj : m.pc j = .at op' s')
    {l : Loc} {w w' : Bool} (ha : s.access = some (l, w)) (ha' : s'.access = some (l, w')) : w = false ∧ w' = false := by
  obtain ⟨_, _, _, _, hl⟩ := rel_exec h
  have hvi : m.view i = some (op, .inl s) := by simp [Conf.view, hi, Proc.view]
  have hvj : m.view j = some (op', .inl s') := by simp [Conf.view, hj, Proc.view]
  rcases access_held (E := E) ha with h1 | ⟨h1, h1'⟩
  · have hw := hl.wr i _ _ hvi h1
    rcases access_held (E := E) ha' with h2 | ⟨_, h2⟩
    · have hw' := hl.wr j _ _ hvj h2
      rw [hw, Option.some.injEq] at hw'
      exact absurd hw' hij
    · have := hl.rd j _ _ hvj h2
      rw [hl.excl (by simp [hw])] at this
      simp at this
  · rcases access_held (E := E) ha' with h2 | ⟨h2, _⟩
    · have := hl.rd i _ _ hvi h1'
      rw [hl.excl (by simp [hl.wr j _ _ hvj h2])] at this
      simp at this
    · exact ⟨h1, h2⟩

/-- **C113.** A call that is about to write to the field or the map is the only one between its `Lock` and its `Unlock`, and no call is between its
`RLock` and its `RUnlock`: the mutex is what orders the accesses. -/
theorem C113_resman_exclusive {cerr : Nat → Option E} {m : Conf (Mem K E) (Op K E) (Res' E) (Pt K E)} {H : List (Ev (Op K E) (Res' E))}
    (h : (prog cerr).mach.Exec m H) {i : Nat} {op : Op K E} {s : Pt K E} (hi : m.pc i = .at op s) {l : Loc} (ha : s.access = some (l, true)) :
    m.g.writer = some i ∧ m.g.readers = [] := by
  obtain ⟨_, _, _, _, hl⟩ := rel_exec h
  have hvi : m.view i = some (op, .inl s) := by simp [Conf.view, hi, Proc.view]
  rcases access_held (E := E) ha with h1 | ⟨h1, _⟩
  · have := hl.wr i _ _ hvi h1
    exact ⟨this, hl.excl (by simp [this])⟩
  · simp at h1

/-- Two `Get`s of different keys both about to look at the map; then one of them stores while the other waits for the lock. -/
theorem demoRead : ∃ m, (prog (fun _ => (none : Option Unit)) : Prog (Mem Bool Unit) _ _ _).mach.Exec m [.inv 0 (.get true none), .inv 1 (.get false none)] ∧
    m.pc 0 = .at (.get true none) .getMap ∧ m.pc 1 = .at (.get false none) .getMap :=
  Mach.exists_exec_state _ [.inv 0 (.get true none), .inv 1 (.get false none), .run 0, .run 0, .run 0, .run 1, .run 1, .run 1] _ _
    (by exact ⟨rfl, rfl, rfl⟩)

theorem demoWrite : ∃ m, (prog (fun _ => (none : Option Unit)) : Prog (Mem Bool Unit) _ _ _).mach.Exec m
    [.inv 0 (.get true none), .inv 1 (.remove true), .inv 2 .close, .ret 0 (.get (.got 0)), .ret 1 (.removed true)] ∧
    m.pc 2 = .at .close (.clSet .zero) ∧ m.g.log = [.created true 0, .stored true 0, .removed true 0] :=
  Mach.exists_exec_state _ [.inv 0 (.get true none), .inv 1 (.remove true), .inv 2 .close, .run 0, .run 0, .run 0, .run 0, .run 0, .run 0, .run 0,
    .run 0, .run 0, .run 0, .run 0, .run 0, .run 0, .run 1, .run 1, .run 1, .run 1, .run 1, .run 1, .run 1, .run 2, .run 2, .run 2] _ _
    (by exact ⟨rfl, rfl, rfl⟩)

example := demoRead.imp fun _ h => C113_resman_no_race h.1 (i := 0) (j := 1) (by decide) h.2.1 h.2.2 rfl rfl
example := demoWrite.imp fun _ h => C113_resman_exclusive h.1 h.2.1 rfl
example := demoWrite.imp fun _ h => C113_resman_atomic h.1

/-- What C31 says about the manager, access by access. -/
theorem C113_close {cerr : Nat → Option E} {m : Conf (Mem K E) (Op K E) (Res' E) (Pt K E)} {H : List (Ev (Op K E) (Res' E))}
    (h : (prog cerr).mach.Exec m H) {i : Nat} {r : Res' E} (hi : Ev.inv i .close ∈ H) (hr : Ev.ret i r ∈ H) :
    (∀ x, x ∈ closedLog m.g.log ↔ ∃ k, ResMan.held k m.g.log = some x) ∧ (closedLog m.g.log).Nodup ∧
    ((∀ j, Ev.inv j .close ∈ H → j = i) → r = .closed (report ((closedLog m.g.log).filterMap cerr))) := by
  obtain ⟨m', h1, h2, _⟩ := C113_resman_atomic h
  rw [← h2]
  exact C31_close h1 hi hr

theorem demoClose : ∃ m, (prog (fun _ => (some () : Option Unit)) : Prog (Mem Bool Unit) _ _ _).mach.Exec m
    [.inv 0 (.get true none), .ret 0 (.get (.got 0)), .inv 1 .close, .ret 1 (.closed (report [()]))] ∧ m.g.log = [.created true 0, .stored true 0, .closed 0] :=
  Mach.exists_exec_state _ [.inv 0 (.get true none), .run 0, .run 0, .run 0, .run 0, .run 0, .run 0, .run 0, .run 0, .run 0, .run 0, .run 0, .run 0, .run 0,
    .inv 1 .close, .run 1, .run 1, .run 1, .run 1, .run 1, .run 1, .run 1, .run 1] _ _ (by exact ⟨rfl, rfl⟩)

example := demoClose.imp fun _ h => C113_close h.1 (i := 1) (r := .closed (report [()])) (by simp) (by simp)

end Verif.XSync.ResManMem

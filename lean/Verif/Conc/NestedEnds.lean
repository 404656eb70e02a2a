import Verif.Conc.Nested
import Verif.Conc.Ends
/-!
# Nested calls come to an end

If the calls of a program end without nested calls, every user function makes finitely many calls, calls are nested to a limited depth, and
every call calls user functions a finite number of times, then the program with nested calls ends too, whatever the schedule.
-/
namespace Verif.Conc

variable {G Op Res S : Type} {P : Prog G Op Res S} {F : Fns Op Res S}

/-- `n'` follows `n` unless a goroutine begins something new. -/
def NMoves (P : Prog G Op Res S) (F : Fns Op Res S) (n' n : NConf G Op Res S) : Prop := ∃ l, NStep P F n false l n'

/-- Proof only: the lexicographic order of pairs. -/
abbrev lexLt : Nat × Nat → Nat × Nat → Prop := Prod.Lex (· < ·) (· < ·)

/-- The function called at `s` has made one more call. -/
def Longer (F : Fns Op Res S) (op : Op) (s : S) (tr' tr : List (Op × Res)) : Prop := ∃ op' r, F op s tr = some op' ∧ tr' = tr ++ [(op', r)]

/-- A measure of what a call has still to do, where it matters for nested calls. -/
structure Finitary (P : Prog G Op Res S) (F : Fns Op Res S) (rank : Op → Nat) (w : Op → S → Nat × Nat) : Prop where
  /-- limited depth -/
  rank : ∀ {op : Op} {s : S} {tr : List (Op × Res)} {op' : Op}, F op s tr = some op' → rank op' < rank op
  /-- a function makes finitely many calls -/
  fns : ∀ op s, WellFounded (Longer F op s)
  /-- a call calls finitely many functions -/
  down : ∀ {m : Conf G Op Res S} {H : List (Ev Op Res)} {i : Nat} {op : Op} {s : S} {c : Nat} {g' : G} {x : S ⊕ Res}, P.mach.Exec m H →
    m.pc i = .at op s → P.step m.g i op s c = some (g', x) →
    lexLt (x.elim (w op) fun _ => (0, 0)) (w op s) ∨ (x.elim (w op) fun _ => (0, 0)) = w op s ∧ F op s [] = none

/-- Where a call is, as far as it matters: its measure, and what its function has done; the flag says whether a call made by it is running. -/
abbrev Pot (Op Res S : Type) := (Nat × Nat) × Option ((Op × S) × List (Op × Res) × Bool)

/-- Proof only: the order on the progress of a user function. -/
inductive InFn (F : Fns Op Res S) : Option ((Op × S) × List (Op × Res) × Bool) → Option ((Op × S) × List (Op × Res) × Bool) → Prop where
  | first {y : (Op × S) × List (Op × Res) × Bool} : InFn F (some y) none
  | call {op : Op} {s : S} {tr : List (Op × Res)} : InFn F (some ((op, s), tr, true)) (some ((op, s), tr, false))
  | back {op : Op} {s : S} {tr : List (Op × Res)} {op' : Op} {r : Res} : F op s tr = some op' →
      InFn F (some ((op, s), tr ++ [(op', r)], false)) (some ((op, s), tr, true))

theorem inFn_wf (h : ∀ op s, WellFounded (Longer F op s)) : WellFounded (InFn F) := by
  have hsome : ∀ op s tr, Acc (InFn F) (some ((op, s), tr, false)) ∧ Acc (InFn F) (some ((op, s), tr, true)) := by
    intro op s tr
    induction tr using (h op s).induction with
    | _ tr ih =>
      have h1 : Acc (InFn F) (some ((op, s), tr, true)) := by
        refine ⟨_, fun y hy => ?_⟩
        cases hy with
        | back hF => exact (ih _ ⟨_, _, hF, rfl⟩).1
      refine ⟨⟨_, fun y hy => ?_⟩, h1⟩
      cases hy with
      | call => exact h1
  refine ⟨fun y => ?_⟩
  have hs : ∀ y, Acc (InFn F) (some y) := by
    rintro ⟨⟨op, s⟩, tr, b⟩
    cases b
    · exact (hsome op s tr).1
    · exact (hsome op s tr).2
  cases y with
  | some y => exact hs y
  | none => exact ⟨_, fun y hy => by cases hy; exact hs _⟩

/-- Proof only: the order on the progress of a call. -/
abbrev PotLt (F : Fns Op Res S) : Pot Op Res S → Pot Op Res S → Prop := Prod.Lex lexLt (InFn F)

theorem potLt_wf (h : ∀ op s, WellFounded (Longer F op s)) : WellFounded (PotLt F) :=
  (Prod.lex (Prod.lex Nat.lt_wfRel Nat.lt_wfRel) ⟨_, inFn_wf h⟩).wf

/-- Lexicographic order of lists. -/
inductive LexL {X : Type} (R : X → X → Prop) : List X → List X → Prop where
  | nil {a : X} {s : List X} : LexL R [] (a :: s)
  | head {a b : X} {s₁ s₂ : List X} : R b a → LexL R (b :: s₂) (a :: s₁)
  | tail {a : X} {s₁ s₂ : List X} : LexL R s₂ s₁ → LexL R (a :: s₂) (a :: s₁)

theorem LexL.append {X : Type} {R : X → X → Prop} (p : List X) {s₁ s₂ : List X} (h : LexL R s₂ s₁) : LexL R (p ++ s₂) (p ++ s₁) := by
  induction p with
  | nil => exact h
  | cons a p ih => exact .tail ih

/-- Lists of limited length. -/
def LexB {X : Type} (R : X → X → Prop) (L : Nat) (s' s : List X) : Prop := LexL R s' s ∧ s'.length ≤ L

theorem acc_lexB {X : Type} {R : X → X → Prop} (hR : WellFounded R) : ∀ (L : Nat) (s : List X), s.length ≤ L → Acc (LexB R L) s
  | 0, s, h => by
    cases s with
    | nil => exact ⟨_, fun _ h => by cases h.1⟩
    | cons _ _ => simp at h
  | L + 1, s, h => by
    have h0 : Acc (LexB R (L + 1)) [] := ⟨_, fun _ h => by cases h.1⟩
    have hc : ∀ a s, s.length ≤ L → Acc (LexB R (L + 1)) (a :: s) := by
      intro a
      induction a using hR.induction with
      | _ a iha =>
      intro s hs
      have hacc := acc_lexB hR L s hs
      induction hacc with
      | intro s _ ihs =>
      refine ⟨_, fun y hy => ?_⟩
      obtain ⟨h1, h2⟩ := hy
      cases h1 with
      | nil => exact h0
      | head hr => exact iha _ hr _ (by simpa using h2)
      | tail ht => exact ihs _ ⟨ht, by simpa using h2⟩ (by simpa using h2)
    cases s with
    | nil => exact h0
    | cons a s => exact hc a s (by simpa using h)

/-- The measure of a call of the stack. -/
def fpot (w : Op → S → Nat × Nat) (m : Conf G Op Res S) (act : Bool) (f : Frame Op Res) : Pot Op Res S :=
  match m.pc f.1 with
  | .at op s => (w op s, if f.2.isEmpty && !act then none else some ((op, s), f.2, act))
  | _ => ((0, 0), none)

/-- The measures of the calls of a stack, the outermost one first. -/
def pots (w : Op → S → Nat × Nat) (m : Conf G Op Res S) : List (Frame Op Res) → List (Pot Op Res S)
  | [] => []
  | f :: rest => (rest.map (fpot w m true)).reverse ++ [fpot w m false f]

theorem fpot_congr {w : Op → S → Nat × Nat} {m m' : Conf G Op Res S} {act : Bool} {f : Frame Op Res} (h : m'.pc f.1 = m.pc f.1) : fpot w m' act f = fpot w m act f := by
  simp only [fpot, h]

theorem pots_congr {w : Op → S → Nat × Nat} {m m' : Conf G Op Res S} {st : List (Frame Op Res)} (h : ∀ f ∈ st, m'.pc f.1 = m.pc f.1) : pots w m' st = pots w m st := by
  cases st with
  | nil => rfl
  | cons f rest =>
    simp only [pots]
    rw [fpot_congr (h f (by simp)), List.map_congr_left fun g hg => fpot_congr (h g (List.mem_cons_of_mem _ hg))]

theorem map_fpot_congr {w : Op → S → Nat × Nat} {m m' : Conf G Op Res S} {st : List (Frame Op Res)} (h : ∀ f ∈ st, m'.pc f.1 = m.pc f.1) :
    st.map (fpot w m' true) = st.map (fpot w m true) := List.map_congr_left fun g hg => fpot_congr (h g hg)

/-- What the function of a call has done was done by a function. -/
def Sound (F : Fns Op Res S) (n : NConf G Op Res S) : Prop :=
  ∀ t i tr, (i, tr) ∈ n.stack t → tr ≠ [] → ∃ op s, n.m.pc i = .at op s ∧ F op s [] ≠ none

theorem NExec.sound {n : NConf G Op Res S} {H : List (Ev Op Res)} (h : NExec P F n H) : Sound F n := by
  induction h with
  | init => intro t i tr hm; simp at hm
  | @step n n' H b l h hs ih =>
    have hI := h.inv
    -- a frame of another goroutine or an outer frame, whose call has not moved
    have keep : ∀ {m' : Conf G Op Res S} {t i : Nat} {tr : List (Op × Res)}, (i, tr) ∈ n.stack t → m'.pc i = n.m.pc i → tr ≠ [] →
        ∃ op s, m'.pc i = .at op s ∧ F op s [] ≠ none := by
      intro m' t i tr hm he hne
      obtain ⟨op, s, h1, h2⟩ := ih t i tr hm hne
      exact ⟨op, s, by rw [he]; exact h1, h2⟩
    intro t' i' tr' hm hne
    cases hs with
    | @start t i op m' hst hi =>
      obtain ⟨hp, rfl⟩ := invoke_eq hi
      by_cases ht : t' = t
      · subst ht
        simp only [upd_same, List.mem_singleton, Prod.mk.injEq] at hm
        exact absurd hm.2 hne
      · simp only [upd_ne _ _ ht] at hm
        exact keep hm (by simp only [upd_ne _ _ (hI.idle hp t' _ hm)]) hne
    | @nest t i j tr rest op op' s m' hst hp hF hi =>
      obtain ⟨hj, rfl⟩ := invoke_eq hi
      by_cases ht : t' = t
      · subst ht
        simp only [upd_same] at hm
        rcases List.mem_cons.mp hm with h | hm
        · exact absurd (Prod.mk.inj h).2 hne
        · rw [← hst] at hm
          exact keep hm (by simp only [upd_ne _ _ (hI.idle hj t' _ hm)]) hne
      · simp only [upd_ne _ _ ht] at hm
        exact keep hm (by simp only [upd_ne _ _ (hI.idle hj t' _ hm)]) hne
    | @run t i c tr rest op s m' hst hp hF hn =>
      obtain ⟨g', x, _, rfl⟩ := run_eq hp hn
      obtain ⟨ho, ho'⟩ := hI.other hst
      by_cases ht : t' = t
      · subst ht
        simp only [upd_same] at hm
        rcases List.mem_cons.mp hm with h | hm
        · exact absurd (Prod.mk.inj h).2 hne
        · exact keep (t := t') (by rw [hst]; exact List.mem_cons_of_mem _ hm) (by simp only [upd_ne _ _ (ho _ hm)]) hne
      · simp only [upd_ne _ _ ht] at hm
        exact keep hm (by simp only [upd_ne _ _ (ho' t' ht _ hm)]) hne
    | @ret t i c tr rest op r e m' hst hp hn =>
      obtain ⟨_, rfl⟩ := ret_eq hp hn
      obtain ⟨ho, ho'⟩ := hI.other hst
      by_cases ht : t' = t
      · subst ht
        simp only [upd_same] at hm
        cases rest with
        | nil => simp [handBack] at hm
        | cons f rest =>
          obtain ⟨i₁, tr₁⟩ := f
          simp only [handBack] at hm
          rcases List.mem_cons.mp hm with h | hm
          · obtain ⟨rfl, rfl⟩ := Prod.mk.inj h
            have hi : i' ≠ i := ho (i', tr₁) (by simp)
            obtain ⟨op₁, s₁, op₂, h1, h2, _⟩ := hI.caller hst
            refine ⟨op₁, s₁, by simpa only [upd_ne _ _ hi] using h1, ?_⟩
            cases tr₁ with
            | nil => rw [h2]; simp
            | cons x tr₁ =>
              obtain ⟨op₃, s₃, h3, h4⟩ := ih t' i' (x :: tr₁) (by rw [hst]; simp) (by simp)
              rw [h1] at h3
              obtain ⟨rfl, rfl⟩ := Proc.at.inj h3
              exact h4
          · exact keep (t := t') (by rw [hst]; exact List.mem_cons_of_mem _ (List.mem_cons_of_mem _ hm))
              (by simp only [upd_ne _ _ (ho _ (List.mem_cons_of_mem _ hm))]) hne
      · simp only [upd_ne _ _ ht] at hm
        exact keep hm (by simp only [upd_ne _ _ (ho' t' ht _ hm)]) hne

/-- What a step does to the measures: those of one goroutine go down, or none changes and a call has moved by itself. -/
theorem NStep.lower {rank : Op → Nat} {w : Op → S → Nat × Nat} (hW : Finitary P F rank w) {n n' : NConf G Op Res S} {H : List (Ev Op Res)}
    {l : Option (Ev Op Res)} (h : NExec P F n H) (hs : NStep P F n false l n') :
    (∃ t, n.stack t ≠ [] ∧ LexL (PotLt F) (pots w n'.m (n'.stack t)) (pots w n.m (n.stack t)) ∧
      ∀ t', t' ≠ t → n'.stack t' = n.stack t' ∧ pots w n'.m (n'.stack t') = pots w n.m (n.stack t')) ∨
    P.Moves n'.m n.m ∧ ∀ t, (n'.stack t = [] ↔ n.stack t = []) ∧ pots w n'.m (n'.stack t) = pots w n.m (n.stack t) := by
  have hI := h.inv
  cases hs with
  | @nest t i j tr rest op op' s m' hst hp hF hi =>
    obtain ⟨hj, rfl⟩ := invoke_eq hi
    have hid := hI.idle hj
    refine .inl ⟨t, by simp [hst], ?_, fun t' ht => ⟨by simp [upd_ne _ _ ht], ?_⟩⟩
    · have hf : ∀ f ∈ (i, tr) :: rest, upd n.m.pc j (.at op' (P.begin op')) f.1 = n.m.pc f.1 := fun f hf =>
        upd_ne _ _ (hid t f (by rw [hst]; exact hf))
      simp only [upd_same, hst, pots]
      rw [map_fpot_congr (m := n.m) (m' := ⟨n.m.g, upd n.m.pc j (.at op' (P.begin op'))⟩) hf, List.map_cons, List.reverse_cons, List.append_assoc]
      refine LexL.append _ (.head ?_)
      simp only [fpot, hp]
      refine Prod.Lex.right _ ?_
      cases tr with
      | nil => exact .first
      | cons x tr => exact .call
    · simp only [upd_ne _ _ ht]
      exact pots_congr fun f hf => by simp only [upd_ne _ _ (hid t' f hf)]
  | @run t i c tr rest op s m' hst hp hF hn =>
    have hmv : P.Moves m' n.m := ⟨_, _, _, hn⟩
    obtain ⟨g', x, hx, rfl⟩ := run_eq hp hn
    obtain ⟨ho, ho'⟩ := hI.other hst
    have hrest : ∀ p, rest.map (fpot w (⟨g', upd n.m.pc i p⟩ : Conf G Op Res S) true) = rest.map (fpot w n.m true) := fun p =>
      map_fpot_congr fun f hf => by simp only [upd_ne _ _ (ho f hf)]
    have hoth : ∀ p t', t' ≠ t → pots w (⟨g', upd n.m.pc i p⟩ : Conf G Op Res S) (n.stack t') = pots w n.m (n.stack t') := fun p t' ht =>
      pots_congr fun f hf => by simp only [upd_ne _ _ (ho' t' ht f hf)]
    have hnew : fpot w (⟨g', upd n.m.pc i (.upto op x)⟩ : Conf G Op Res S) false (i, []) = (x.elim (w op) fun _ => (0, 0), none) := by
      cases x <;> simp [fpot, Proc.upto]
    rcases hW.down h.flat hp hx with hd | ⟨he, hF0⟩
    · refine .inl ⟨t, by simp [hst], ?_, fun t' ht => ⟨by simp [upd_ne _ _ ht], by simp only [upd_ne _ _ ht]; exact hoth _ t' ht⟩⟩
      simp only [upd_same, hst, pots]
      rw [hrest, hnew]
      refine LexL.append _ (.head ?_)
      simp only [fpot, hp]
      exact Prod.Lex.left _ _ hd
    · refine .inr ⟨hmv, fun t' => ?_⟩
      by_cases ht : t' = t
      · subst ht
        simp only [upd_same, hst, pots]
        refine ⟨by simp, ?_⟩
        rw [hrest, hnew, he]
        have htr : tr = [] := by
          apply Classical.byContradiction
          intro hne
          obtain ⟨op₁, s₁, h1, h2⟩ := h.sound t' i tr (by rw [hst]; simp) hne
          rw [hp] at h1
          obtain ⟨rfl, rfl⟩ := Proc.at.inj h1
          exact h2 hF0
        subst htr
        simp [fpot, hp]
      · simp only [upd_ne _ _ ht]
        exact ⟨trivial, hoth _ t' ht⟩
  | @ret t i c tr rest op r e m' hst hp hn =>
    obtain ⟨_, rfl⟩ := ret_eq hp hn
    obtain ⟨ho, ho'⟩ := hI.other hst
    refine .inl ⟨t, by simp [hst], ?_, fun t' ht => ⟨by simp [upd_ne _ _ ht], ?_⟩⟩
    · simp only [upd_same, hst]
      cases rest with
      | nil => exact .nil
      | cons f rest =>
        obtain ⟨i₁, tr₁⟩ := f
        obtain ⟨op₁, s₁, op₂, h1, h2, h3⟩ := hI.caller hst
        have hi : i₁ ≠ i := ho (i₁, tr₁) (by simp)
        rw [hp] at h3
        simp only [Proc.op?, Option.some.injEq] at h3
        subst h3
        simp only [handBack, pots]
        rw [map_fpot_congr (m := n.m) (m' := ⟨n.m.g, upd n.m.pc i (.done op r)⟩) fun f hf => by
          simp only [upd_ne _ _ (ho f (List.mem_cons_of_mem _ hf))], List.map_cons, List.reverse_cons, List.append_assoc]
        refine LexL.append _ (.head ?_)
        simp only [fpot, upd_ne _ _ hi, h1]
        refine Prod.Lex.right _ ?_
        have he : (tr₁ ++ [(op, r)]).isEmpty = false := by cases tr₁ <;> rfl
        simp only [he, Bool.not_true, Bool.and_false, Bool.false_and, Bool.false_eq_true, if_false]
        exact .back h2
    · simp only [upd_ne _ _ ht]
      exact pots_congr fun f hf => by simp only [upd_ne _ _ (ho' t' ht f hf)]

/-- The operations in use have a rank of at most `L`. -/
def Ranked (rank : Op → Nat) (L : Nat) (m : Conf G Op Res S) : Prop := ∀ i op, (m.pc i).op? = some op → rank op ≤ L

theorem NExec.ranked (rank : Op → Nat) {n : NConf G Op Res S} {H : List (Ev Op Res)} (h : NExec P F n H) : ∃ L, Ranked rank L n.m := by
  have hb : ∃ L, ∀ i op, Ev.inv i op ∈ H → rank op ≤ L := by
    clear h
    induction H with
    | nil => exact ⟨0, by simp⟩
    | cons e H ih =>
      obtain ⟨L, hL⟩ := ih
      cases e with
      | inv j op' =>
        refine ⟨max L (rank op'), fun i op hm => ?_⟩
        rcases List.mem_cons.mp hm with h | hm
        · obtain ⟨rfl, rfl⟩ := Ev.inv.inj h; exact Nat.le_max_right _ _
        · exact Nat.le_trans (hL i op hm) (Nat.le_max_left _ _)
      | ret j r => exact ⟨L, fun i op hm => hL i op (by simpa using hm)⟩
  obtain ⟨L, hL⟩ := hb
  refine ⟨L, fun i op ho => hL i op (((P.hist h.flat).1 i op).mpr ?_)⟩
  simp only [Conf.view]
  cases hp : n.m.pc i <;> simp only [hp, Proc.op?, Option.some.injEq, reduceCtorEq] at ho <;> subst ho <;> exact ⟨_, rfl⟩

theorem NStep.ranked {rank : Op → Nat} {w : Op → S → Nat × Nat} (hW : Finitary P F rank w) {L : Nat} {n n' : NConf G Op Res S}
    {l : Option (Ev Op Res)} (hs : NStep P F n false l n') (hr : Ranked rank L n.m) : Ranked rank L n'.m := by
  have keep : ∀ {i : Nat} {op : Op} {p : Proc Op Res S} {g' : G}, p.op? = some op → rank op ≤ L → Ranked rank L (⟨g', upd n.m.pc i p⟩ : Conf G Op Res S) := by
    intro i op p g' hp hop j op' hj
    by_cases hij : j = i
    · subst hij
      simp only [upd_same, hp, Option.some.injEq] at hj
      rw [← hj]; exact hop
    · simp only [upd_ne _ _ hij] at hj
      exact hr j op' hj
  cases hs with
  | nest _ hp hF hi =>
    obtain ⟨_, rfl⟩ := invoke_eq hi
    exact keep rfl (Nat.le_trans (Nat.le_of_lt (hW.rank hF)) (hr _ _ (by rw [hp]; rfl)))
  | run _ hp hF hn =>
    obtain ⟨g', x, _, rfl⟩ := run_eq hp hn
    refine keep ?_ (hr _ _ (by rw [hp]; rfl))
    cases x <;> rfl
  | ret _ hp hn =>
    obtain ⟨_, rfl⟩ := ret_eq hp hn
    exact keep rfl (hr _ _ (by rw [hp]; rfl))

/-- A stack is not longer than the rank of its outermost call allows. -/
theorem Linked.short {rank : Op → Nat} {w : Op → S → Nat × Nat} (hW : Finitary P F rank w) {L : Nat} {m : Conf G Op Res S} (hr : Ranked rank L m) :
    ∀ {st : List (Frame Op Res)} {j : Nat} {tr : List (Op × Res)} {op : Op}, Linked F m ((j, tr) :: st) → (m.pc j).op? = some op → st.length + rank op ≤ L
  | [], j, tr, op, _, hj => by simpa using hr j op hj
  | (i, tr') :: st, j, tr, op, h, hj => by
    obtain ⟨⟨op₁, s₁, op₂, h1, h2, h3⟩, h4⟩ := h
    rw [hj, Option.some.injEq] at h3
    subst h3
    have := h4.short hW hr (op := op₁) (by rw [h1]; rfl)
    have := hW.rank h2
    simp only [List.length_cons]
    omega

theorem NExec.short {rank : Op → Nat} {w : Op → S → Nat × Nat} (hW : Finitary P F rank w) {L : Nat} {n : NConf G Op Res S} {H : List (Ev Op Res)}
    (h : NExec P F n H) (hr : Ranked rank L n.m) (t : Nat) : (pots w n.m (n.stack t)).length ≤ L + 1 := by
  cases hst : n.stack t with
  | nil => simp [Conc.pots]
  | cons f rest =>
    simp only [Conc.pots, List.length_append, List.length_reverse, List.length_map, List.length_singleton]
    have hl := h.inv.linked t
    rw [hst] at hl
    have : ∃ op, (n.m.pc f.1).op? = some op := by
      rcases (h.inv.pending f.1).mpr ⟨t, f.2, by rw [hst]; simp⟩ with ⟨op, s, hp⟩ | ⟨op, r, hp⟩ <;> exact ⟨op, by rw [hp]; rfl⟩
    obtain ⟨op, hop⟩ := this
    have := Linked.short hW hr (j := f.1) (tr := f.2) hl hop
    omega

/-- Finitely many goroutines have unfinished calls. -/
theorem NExec.few {n : NConf G Op Res S} {H : List (Ev Op Res)} (h : NExec P F n H) : ∃ T, ∀ t, T ≤ t → n.stack t = [] := by
  induction h with
  | init => exact ⟨0, fun _ _ => rfl⟩
  | @step n n' H b l h hs ih =>
    obtain ⟨T, hT⟩ := ih
    have key : ∀ (t : Nat) (st : List (Frame Op Res)), ∃ T, ∀ t', T ≤ t' → upd n.stack t st t' = [] := fun t st =>
      ⟨max T (t + 1), fun t' ht' => by
        have : t' ≠ t := by omega
        rw [upd_ne _ _ this]; exact hT t' (by omega)⟩
    cases hs with
    | start => exact key _ _
    | nest => exact key _ _
    | run => exact key _ _
    | ret => exact key _ _

/-- Unless something new is begun, every execution ends. -/
theorem NExec.ends {rank : Op → Nat} {w : Op → S → Nat × Nat} (hW : Finitary P F rank w)
    (hflat : ∀ {m : Conf G Op Res S} {H : List (Ev Op Res)}, P.mach.Exec m H → Acc P.Moves m) {n : NConf G Op Res S} {H : List (Ev Op Res)}
    (h : NExec P F n H) : Acc (NMoves P F) n := by
  obtain ⟨L, hL⟩ := h.ranked rank
  obtain ⟨T, hT⟩ := h.few
  have main : ∀ f, Acc (Below (LexB (PotLt F) (L + 1)) T) f → ∀ (n : NConf G Op Res S) (H : List (Ev Op Res)), NExec P F n H → Ranked rank L n.m →
      (∀ t, T ≤ t → n.stack t = []) → (fun t => pots w n.m (n.stack t)) = f → Acc (NMoves P F) n := by
    intro f hf
    induction hf with
    | intro f _ ihf =>
    intro n H h hr hT hpf
    have hacc := hflat h.flat
    generalize hm : n.m = m at hacc
    induction hacc generalizing n H with
    | intro m _ ihm =>
    subst hm
    refine ⟨_, fun n' ⟨l, hs⟩ => ?_⟩
    have h' := h.step hs
    have hr' := hs.ranked hW hr
    rcases hs.lower hW h with ⟨t, h1, h2, h3⟩ | ⟨h1, h2⟩
    · have ht : t < T := by
        rcases Nat.lt_or_ge t T with ht | ht
        · exact ht
        · exact absurd (hT t ht) h1
      refine ihf (fun t => pots w n'.m (n'.stack t)) ⟨t, ht, ?_, ?_⟩ n' _ h' hr' (fun t' ht' => ?_) rfl
      · refine ⟨?_, h'.short hW hr' t⟩
        rw [← hpf]; exact h2
      · intro t' ht'
        rw [← hpf]; exact (h3 t' ht').2
      · rw [(h3 t' (by omega)).1]; exact hT t' ht'
    · refine ihm n'.m h1 n' _ h' hr' (fun t ht => (h2 t).1.mpr (hT t ht)) ?_ rfl
      rw [← hpf]
      funext t
      exact (h2 t).2
  exact main _ (acc_below T _ fun t _ => acc_lexB (potLt_wf hW.fns) _ _ (h.short hW hL t)) n H h hL hT rfl

/-- Where executions end, some execution leads to a state in which nothing moves. -/
theorem exists_stuck {n : NConf G Op Res S} (h : Acc (NMoves P F) n) : ∀ H, ∃ n' H', NLeads P F n H n' (H ++ H') ∧ n'.Stuck P F := by
  induction h with
  | intro n _ ih =>
    intro H
    by_cases hs : n.Stuck P F
    · exact ⟨n, [], by simpa using .refl, hs⟩
    · simp only [NConf.Stuck, not_forall, not_not] at hs
      obtain ⟨l, n₁, h1⟩ := hs
      obtain ⟨n', H', h2, h3⟩ := ih n₁ ⟨l, h1⟩ (H ++ l.toList)
      exact ⟨n', l.toList ++ H', by simpa [List.append_assoc] using h2.after h1, h3⟩

end Verif.Conc

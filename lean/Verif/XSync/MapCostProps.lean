import Verif.XSync.MapCost2
/-!
# The work of the concurrent map

C95: `Load`, `Store` and `Delete` take amortised constant time, and reads of a map that gets no new keys soon do without the lock.
-/
namespace Verif.XSync.MapConc
open Verif.Conc Verif.Go

variable {K V : Type} [DecidableEq K] [DecidableEq V]

/-! ## Specification -/

/-- The number of calls made. -/
def calls (H : List (Ev (Op K V) (Res K V))) : Nat := H.countP fun e => match e with | .inv _ _ => true | .ret _ _ => false

/-- The keys that `Store`, `LoadOrStore` and `ComputeIfAbsent` were called with. -/
def addedKeys (H : List (Ev (Op K V) (Res K V))) : List K :=
  H.filterMap fun e => match e with
    | .inv _ (.store k _) | .inv _ (.loadOrStore k _) | .inv _ (.computeIfAbsent k _) => some k
    | _ => none

/-- Their number, without repetitions. -/
def size (H : List (Ev (Op K V) (Res K V))) : Nat := (addedKeys H).dedup.length

/-- A call starts only after all earlier calls have returned. -/
def Alone (H : List (Ev (Op K V) (Res K V))) : Prop := ∀ A B i op, H = A ++ .inv i op :: B → ∀ j op', Ev.inv j op' ∈ A → ∃ r, Ev.ret j r ∈ A

/-- A call that looked into `m.dirty`, because the key was not in `read.m`, and that now counts this as a miss (map.go:482-490). -/
def Miss (t : MTick K V) : Bool := match t.s with | .miss _ => true | _ => false

/-- `m.mu.Lock()` -/
def Locks (t : MTick K V) : Bool := match t.s with | .lock => true | _ => false

/-- After the calls of `H₀` no key is added: neither by calls of `H₀` that have not returned nor by the calls of `H`. -/
def NoAdds (H₀ H : List (Ev (Op K V) (Res K V))) : Prop :=
  (∀ i op, Ev.inv i op ∈ H₀ → (∀ r, Ev.ret i r ∉ H₀) → op.adds = false) ∧ ∀ i op, Ev.inv i op ∈ H → op.adds = false

/-- The calls are calls of `Load`, `LoadAndDelete` and `Delete`. -/
def Op.looks : Op K V → Bool
  | .load _ | .loadAndDelete _ | .delete _ => true
  | _ => false

/-! ## Keys -/

omit [DecidableEq K] [DecidableEq V] in
theorem addedKeys_append (A B : List (Ev (Op K V) (Res K V))) : addedKeys (A ++ B) = addedKeys A ++ addedKeys B := List.filterMap_append

omit [DecidableEq K] [DecidableEq V] in
theorem mem_addedKeys {H : List (Ev (Op K V) (Res K V))} {i : Nat} {op : Op K V} {k : K} (h : Ev.inv i op ∈ H) (ha : op.adds = true)
    (hk : op.key? = some k) : k ∈ addedKeys H := by
  refine List.mem_filterMap.2 ⟨_, h, ?_⟩
  cases op <;> simp_all [Op.adds, Op.key?]

omit [DecidableEq V] in
theorem size_mono (A B : List (Ev (Op K V) (Res K V))) : size A ≤ size (A ++ B) := by
  apply List.Subperm.length_le
  refine List.subperm_of_subset (List.nodup_dedup _) ?_
  intro k hk
  rw [List.mem_dedup] at hk ⊢
  rw [addedKeys_append]; exact List.mem_append_left _ hk

/-- Steps other than `add` do not change the keys of the entries. -/
theorem step_key {g g' : G K V} {i c : Nat} {op : Op K V} {s : Pt K V} {x : Pt K V ⊕ Res K V} (h : step g i op s c = some (g', x)) :
    g'.key = g.key ∨ ∃ v k, s = .add v ∧ op.key? = some k ∧ g'.key = upd g.key g.next (some k) := by
  have hsd : ∀ {g g' : G K V} {k : K} {e : Nat}, g.setDirty k e = some g' → g'.key = g.key := by
    intro g g' k e h
    unfold G.setDirty at h
    split at h <;> simp at h
    subst h; rfl
  cases s
  case add v =>
    simp only [step] at h
    split at h
    · simp at h
    · rename_i k hk
      split at h <;> simp at h <;> obtain ⟨rfl, rfl⟩ := h
      · exact .inl rfl
      · rename_i hd
        exact .inr ⟨v, k, rfl, hk, by simp [hsd hd]⟩
  case locked =>
    left
    simp only [step, Option.some.injEq, Prod.mk.injEq] at h
    obtain ⟨rfl, rfl⟩ := h
    cases op <;> simp only [lockedStep] <;> (try split) <;> (try split) <;> (try split) <;> rfl
  all_goals
    left
    simp only [step] at h
    repeat' split at h
    all_goals first
      | (simp only [Option.some.injEq, Prod.mk.injEq, reduceCtorEq] at h; obtain ⟨rfl, rfl⟩ := h; first | rfl | exact hsd (by assumption) | exact hsd (g := g.setP _ _) (by assumption))
      | simp at h

theorem keys_added {m : Conf (G K V) (Op K V) (Res K V) (Pt K V)} {H : List (Ev (Op K V) (Res K V))} (h : prog.mach.Exec m H) :
    ∀ e k, m.g.key e = some k → k ∈ addedKeys H := by
  obtain ⟨l, hr⟩ := Prog.exec_run h
  refine Prog.Run.induct (fun g v H l => ∀ e k, g.key e = some k → k ∈ addedKeys H) ?_ ?_ ?_ ?_ hr
  · intro e k h; simp [Prog.mach, prog, G.zero] at h
  · intro m' H l i op _ ih _ e k he
    rw [addedKeys_append]; exact List.mem_append_left _ (ih e k he)
  · intro m' H l i op s c g' x hr ih hv hs e k he
    have hx := hr.exec (P := prog) .init
    rcases step_key hs with h1 | ⟨v, k', rfl, hk, h1⟩
    · exact ih e k (h1 ▸ he)
    · rw [h1] at he
      by_cases hen : e = m'.g.next
      · subst hen
        simp only [upd_same, Option.some.injEq] at he
        subst he
        obtain ⟨gh, -, -, hI⟩ := simulation hx
        have := hI.floc i op _ hv
        refine mem_addedKeys (i := i) (op := op) ?_ ?_ hk
        · simpa using ((prog.hist hx).1 i op).2 ⟨_, hv⟩
        · obtain ⟨-, h2⟩ := this
          cases op <;> simp_all [AddOk, Op.adds]
      · rw [upd_ne _ _ hen] at he; exact ih e k he
  · intro m' H l i op r _ ih _ e k he
    rw [addedKeys_append]; exact List.mem_append_left _ (ih e k he)

/-- `m.dirty` has at most one entry for every key. -/
theorem dirty_size {m : Conf (G K V) (Op K V) (Res K V) (Pt K V)} {H : List (Ev (Op K V) (Res K V))} (h : prog.mach.Exec m H) :
    (m.g.dirty.getD []).length ≤ size H := by
  obtain ⟨gh, -, -, hI⟩ := simulation h
  have hk := keys_added h
  rw [← List.length_map (f := (·.1)) (as := m.g.dirty.getD [])]
  apply List.Subperm.length_le
  refine List.subperm_of_subset hI.wfD ?_
  intro k hk'
  obtain ⟨⟨k, e⟩, h1, rfl⟩ := List.mem_map.1 hk'
  rw [List.mem_dedup]
  exact hk e k (hI.gi.keyD k e (GMap.get_of_mem hI.wfD h1))

/-! ## The counter of misses -/

theorem counter {m : Conf (G K V) (Op K V) (Res K V) (Pt K V)} {H : List (Ev (Op K V) (Res K V))} (h : prog.mach.Exec m H) :
    (m.g.mu = none → Q m.g) ∧ ∀ i op s, m.view i = some (op, .inl s) → s.holds = true → Jl m.g (max 1 (size H)) s := by
  obtain ⟨l, hr⟩ := Prog.exec_run h
  have mono : ∀ {g : G K V} {B B' : Nat} {s : Pt K V}, B ≤ B' → Jl g B s → Jl g B' s := by
    intro g B B' s hB hJ
    cases s <;> first | exact hJ | exact ⟨Nat.lt_of_lt_of_le hJ.1 hB, hJ.2⟩ | exact ⟨Nat.le_trans hJ.1 hB, hJ.2⟩
  refine Prog.Run.induct (fun g v H l => (g.mu = none → Q g) ∧ ∀ i op s, v i = some (op, .inl s) → s.holds = true → Jl g (max 1 (size H)) s)
    ?_ ?_ ?_ ?_ hr
  · refine ⟨fun _ => ⟨fun _ => rfl, fun h => by simp [Prog.mach, prog, G.zero] at h⟩, fun i op s h => ?_⟩
    simp [Conf.view, Prog.mach, Proc.view] at h
  · rintro m' H l i op hr ⟨ih1, ih2⟩ hv
    have hs := size_mono H [.inv i op]
    refine ⟨ih1, fun j o t hj ht => ?_⟩
    by_cases hji : j = i
    · subst hji
      simp only [upd_same, Option.some.injEq, Prod.mk.injEq, Sum.inl.injEq] at hj
      obtain ⟨-, rfl⟩ := hj
      simp [prog, Pt.holds] at ht
    · rw [upd_ne _ _ hji] at hj
      exact mono (by omega) (ih2 j o t hj ht)
  · rintro m' H l i op s c g' x hr ⟨ih1, ih2⟩ hv hs
    have hx := hr.exec (P := prog) .init
    have hx' : prog.mach.Exec (⟨g', upd m'.pc i (.of op x)⟩ : Conf (G K V) (Op K V) (Res K V) (Pt K V)) ([] ++ H) := by
      refine (Prog.Run.step hr ?_ hs).exec .init
      simp only [Conf.view] at hv
      cases hq : m'.pc i <;> simp [hq, Proc.view] at hv
      rw [hv.1, hv.2]
    have hview : (⟨g', upd m'.pc i (.of op x)⟩ : Conf (G K V) (Op K V) (Res K V) (Pt K V)).view = upd m'.view i (some (op, x)) := by
      rw [view_upd]; cases x <;> rfl
    obtain ⟨gh, -, -, hI⟩ := simulation hx
    obtain ⟨gh', -, -, hI'⟩ := simulation hx'
    have hD := dirty_size hx
    rw [List.nil_append] at hD
    rw [hview] at hI'
    by_cases hh : s.holds = true
    · have hmu := (hI.mu i op s hv).1 hh
      have hJ : Jx g' (max 1 (size H)) x := by
        refine step_jx hh (ih2 i op s hv hh) (by omega) hI.wfD (hI.lloc i op s hv hh) ?_ ?_ ?_ hs
        · intro k h1 e h2; exact (hI.gi.priv k e h2 h1).1
        · rintro rm rfl
          exact (hI.gi.building (by simp [modeAt, hmu, hv, Pt.mode])).2
        · rintro rm rfl; exact (hI.lloc i op _ hv hh).2.1
      refine ⟨fun hm => ?_, fun j o t hj ht => ?_⟩
      · cases x with
        | inr r => exact hJ
        | inl s' =>
          have := hI'.mu i op s' (by simp)
          have hns : s'.holds = false := by
            cases hq : s'.holds
            · rfl
            · have := this.1 hq; simp only at this; rw [hm] at this; simp at this
          cases s' <;> first | exact hJ | simp [Pt.holds] at hns
      · by_cases hji : j = i
        · subst hji
          simp only [upd_same, Option.some.injEq, Prod.mk.injEq] at hj
          obtain ⟨-, rfl⟩ := hj
          exact hJ
        · rw [upd_ne _ _ hji] at hj
          have := (hI.mu j o t hj).1 ht
          rw [hmu] at this; exact absurd (Option.some.inj this).symm hji
    · simp only [Bool.not_eq_true] at hh
      obtain ⟨h1, h2, h3, h4⟩ := step_free hh hs
      have hQ : Q m'.g → Q g' := fun h => h.grow h1 h2 (by rw [h3]; exact Nat.le_refl _)
      refine ⟨fun hm => ?_, fun j o t hj ht => ?_⟩
      · by_cases hm0 : m'.g.mu = none
        · exact hQ (ih1 hm0)
        · obtain ⟨j, hj⟩ := Option.ne_none_iff_exists'.1 hm0
          obtain ⟨o, t, ht, hth⟩ := hI.muIn j hj
          have hji : j ≠ i := by rintro rfl; rw [hv] at ht; simp only [Option.some.injEq, Prod.mk.injEq, Sum.inl.injEq] at ht; rw [← ht.2, hh] at hth; simp at hth
          have := (hI'.mu j o t (by rw [upd_ne _ _ hji]; exact ht)).1 hth
          simp only at this; rw [hm] at this; simp at this
      · by_cases hji : j = i
        · subst hji
          simp only [upd_same, Option.some.injEq, Prod.mk.injEq] at hj
          obtain ⟨-, rfl⟩ := hj
          by_cases hl : s = .lock
          · subst hl
            simp only [prog, step] at hs
            split at hs <;> simp only [Option.some.injEq, Prod.mk.injEq, Sum.inl.injEq, reduceCtorEq] at hs
            obtain ⟨rfl, rfl⟩ := hs
            exact hQ (ih1 (by rename_i hm; simpa using hm))
          · have := step_unlocked hh hs hl
            simp [lockedX, ht] at this
        · rw [upd_ne _ _ hji] at hj
          have hJ := ih2 j o t hj ht
          cases t <;> first | exact hQ hJ | (simp only [Jl, h1, h2, h3]; exact hJ)
  · rintro m' H l i op r hr ⟨ih1, ih2⟩ hv
    have hs := size_mono H [.ret i r]
    exact ⟨ih1, fun j o t hj ht => mono (by omega) (ih2 j o t hj ht)⟩

/-! ## The total work -/

theorem ptOk {m : Conf (G K V) (Op K V) (Res K V) (Pt K V)} {H : List (Ev (Op K V) (Res K V))} (h : prog.mach.Exec m H) {i : Nat} {op : Op K V}
    {s : Pt K V} (hv : m.view i = some (op, .inl s)) : PtOk m.g op s := by
  obtain ⟨gh, -, -, hI⟩ := simulation h
  cases s <;> try trivial
  · exact ((counter h).2 i op _ hv rfl).2.2
  · exact (hI.floc i op _ hv).2
  · exact (hI.lloc i op _ hv rfl).1

/-- The calls made. -/
def ids (H : List (Ev (Op K V) (Res K V))) : List Nat := H.filterMap fun e => match e with | .inv i _ => some i | .ret _ _ => none

omit [DecidableEq K] [DecidableEq V] in
theorem ids_inv (H : List (Ev (Op K V) (Res K V))) (i : Nat) (op : Op K V) : ids (H ++ [.inv i op]) = ids H ++ [i] := by
  simp [ids, List.filterMap_append]

omit [DecidableEq K] [DecidableEq V] in
theorem ids_ret (H : List (Ev (Op K V) (Res K V))) (i : Nat) (r : Res K V) : ids (H ++ [.ret i r]) = ids H := by
  simp [ids, List.filterMap_append]

omit [DecidableEq K] [DecidableEq V] in
theorem length_ids (H : List (Ev (Op K V) (Res K V))) : (ids H).length = calls H := by
  induction H with
  | nil => rfl
  | cons e H ih => cases e <;> simp_all [ids, calls]

omit [DecidableEq K] [DecidableEq V] in
theorem mem_ids (H : List (Ev (Op K V) (Res K V))) (i : Nat) : i ∈ ids H ↔ ∃ op, Ev.inv i op ∈ H := by
  simp only [ids, List.mem_filterMap]
  constructor
  · rintro ⟨e, h1, h2⟩
    cases e <;> simp at h2
    subst h2; exact ⟨_, h1⟩
  · rintro ⟨op, h⟩; exact ⟨_, h, rfl⟩

/-- The weight of a call. -/
def W : Option (Op K V × (Pt K V ⊕ Res K V)) → Nat
  | none => 0
  | some (_, x) => wt x

theorem sum_upd {A : Type} (f : A → Nat) (v : Nat → A) (i : Nat) (a : A) (l : List Nat) (hn : l.Nodup) :
    (l.map fun j => f (upd v i a j)).sum + (if i ∈ l then f (v i) else 0) = (l.map fun j => f (v j)).sum + (if i ∈ l then f a else 0) := by
  induction l with
  | nil => simp
  | cons j l ih =>
    simp only [List.nodup_cons] at hn
    have := ih hn.2
    by_cases hj : i = j
    · subst hj
      simp [hn.1] at this ⊢
      omega
    · have h2 : upd v i a j = v j := upd_ne _ _ (Ne.symm hj)
      simp only [List.map_cons, List.sum_cons, List.mem_cons, hj, false_or, h2]
      omega

theorem work {m : Conf (G K V) (Op K V) (Res K V) (Pt K V)} {H : List (Ev (Op K V) (Res K V))} {l : List (MTick K V)}
    (h : prog.Run prog.mach.start m H l) : (ids H).Nodup ∧
    l.length + ((ids H).map fun i => W (m.view i)).sum + pot m.g ≤ 15 * (ids H).length + 2 * l.countP Retry + 5 * (l.map snap).sum := by
  refine Prog.Run.induct (fun g v H l => (ids H).Nodup ∧ l.length + ((ids H).map fun i => W (v i)).sum + pot g ≤
    15 * (ids H).length + 2 * l.countP Retry + 5 * (l.map snap).sum) ?_ ?_ ?_ ?_ h
  · simp [ids, pot, Prog.mach, prog, G.zero]
  · rintro m' H l i op hr ⟨h1, h2⟩ hv
    have hni : i ∉ ids H := by
      rw [mem_ids]
      rintro ⟨op', ho⟩
      obtain ⟨x, hx⟩ := ((prog.hist (hr.exec (P := prog) .init)).1 i op').1 (by simpa using ho)
      rw [hv] at hx; simp at hx
    have hs := sum_upd W m'.view i (some (op, .inl (prog.begin op))) (ids H) h1
    simp only [hni, if_false, Nat.add_zero] at hs
    rw [ids_inv]
    refine ⟨List.nodup_append.2 ⟨h1, by simp, by intro a ha b hb; simp at hb; subst hb; rintro rfl; exact hni ha⟩, ?_⟩
    simp only [List.map_append, List.map_cons, List.map_nil, List.sum_append, List.sum_cons, List.sum_nil, hs, upd_same, List.length_append,
      List.length_cons, List.length_nil]
    have : W (some (op, (.inl (prog.begin op) : Pt K V ⊕ Res K V))) = 15 := rfl
    omega
  · rintro m' H l i op s c g' x hr ⟨h1, h2⟩ hv hs
    have hx := hr.exec (P := prog) .init
    have hi : i ∈ ids H := by
      rw [mem_ids]
      exact ⟨op, by simpa using ((prog.hist hx).1 i op).2 ⟨_, hv⟩⟩
    have hsum := sum_upd W m'.view i (some (op, x)) (ids H) h1
    have hw := step_wt (ptOk hx hv) hs
    simp only [hi, if_true, hv] at hsum
    have e1 : W (some (op, x)) = wt x := rfl
    have e2 : W (some (op, (.inl s : Pt K V ⊕ Res K V))) = s.wt := rfl
    refine ⟨h1, ?_⟩
    simp only [List.length_append, List.length_cons, List.length_nil, List.countP_append, List.countP_singleton, List.map_append, List.map_cons,
      List.map_nil, List.sum_append, List.sum_cons, List.sum_nil]
    omega
  · rintro m' H l i op r hr ⟨h1, h2⟩ hv
    rw [ids_ret]; exact ⟨h1, h2⟩

/-- C95: in every execution, the number of steps is linear in the number of calls, of failed compare-and-swaps and of entries that `Range`
iterates over. The entries copied in `dirtyLocked` are not counted on the right. -/
theorem C95_work {m : Conf (G K V) (Op K V) (Res K V) (Pt K V)} {H : List (Ev (Op K V) (Res K V))} {l : List (MTick K V)}
    (h : prog.Run prog.mach.start m H l) : l.length ≤ 15 * calls H + 2 * l.countP Retry + 5 * (l.map snap).sum := by
  have := (work h).2
  rw [length_ids] at this
  omega

/-! ## Calls that do not overlap -/

/-- The key that `Load`, `LoadAndDelete` or `Delete` look for is not in `read.m`, and there may be more keys in `m.dirty`. -/
def Absent (g : G K V) (op : Op K V) : Prop := op.looks = true → ∀ k, op.key? = some k → g.read.get k = none ∧ g.amended = true

/-- What a call knows when it is alone. -/
def SeqOk (g : G K V) (op : Op K V) : Pt K V → Prop
  | .call _ e p | .cas _ e p _ | .delCas e p => g.p e = p
  | .buildC _ _ _ e => g.p e = .nil
  | .reload _ _ _ => False
  | .lock | .locked => Absent g op
  | _ => True

/-- Proof only: part of an invariant or simulation; models no code. -/
def SeqX (g : G K V) (op : Op K V) : Pt K V ⊕ Res K V → Prop
  | .inl s => SeqOk g op s
  | .inr _ => True

omit [DecidableEq V] in
theorem seq_decide {g : G K V} {op : Op K V} {m : Mode} {e : Nat} (hop : op.tries = true) (d : Dec K V) : SeqX g op (decide' op m e (g.p e) d) := by
  have hl : Absent g op := fun h => by cases op <;> simp_all [Op.looks, Op.tries]
  cases d <;> cases m <;> first | exact rfl | trivial

theorem seq_step {g g' : G K V} {i c : Nat} {op : Op K V} {s : Pt K V} {x : Pt K V ⊕ Res K V} (hop : ∀ m e, s = .tryLoad m e → op.tries = true)
    (hs : SeqOk g op s) (h : step g i op s c = some (g', x)) : SeqX g' op x ∧ Retry ⟨g, i, op, s, c⟩ = false := by
  cases s with
  | start =>
    refine ⟨?_, rfl⟩
    simp only [step, Option.some.injEq, Prod.mk.injEq] at h
    obtain ⟨rfl, rfl⟩ := h
    cases op <;> simp only [startStep] <;> (try split) <;> (try split) <;> first | trivial | skip
    all_goals
      intro hl k hk
      simp only [Op.looks, Bool.false_eq_true, Op.key?, Option.some.injEq] at hl hk
    all_goals
      subst hk
      exact ⟨by assumption, by assumption⟩
  | locked =>
    refine ⟨?_, rfl⟩
    simp only [step, Option.some.injEq, Prod.mk.injEq] at h
    obtain ⟨rfl, rfl⟩ := h
    cases op <;> simp only [lockedStep] <;> (try split) <;> (try split) <;> (try split) <;> trivial
  | tryLoad m e =>
    simp only [step, Option.some.injEq, Prod.mk.injEq] at h
    obtain ⟨rfl, rfl⟩ := h
    exact ⟨seq_decide (hop m e rfl) _, rfl⟩
  | reload m e x => exact hs.elim
  | call m e p =>
    simp only [step] at h
    split at h <;> simp at h
    obtain ⟨rfl, rfl⟩ := h
    exact ⟨hs, rfl⟩
  | cas m e p y =>
    simp only [SeqOk] at hs
    simp only [step, hs, if_true, Option.some.injEq, Prod.mk.injEq] at h
    obtain ⟨rfl, rfl⟩ := h
    exact ⟨by cases m <;> trivial, by simp [Retry, hs]⟩
  | delCas e p =>
    simp only [SeqOk] at hs
    simp only [step, hs, if_true, Option.some.injEq, Prod.mk.injEq] at h
    obtain ⟨rfl, rfl⟩ := h
    exact ⟨trivial, by simp [Retry, hs]⟩
  | buildC rm rest k e =>
    simp only [SeqOk] at hs
    simp only [step, hs, if_true, Option.some.injEq, Prod.mk.injEq] at h
    obtain ⟨rfl, rfl⟩ := h
    exact ⟨trivial, by simp [Retry, hs]⟩
  | lock =>
    simp only [step] at h
    split at h <;> simp at h
    obtain ⟨rfl, rfl⟩ := h
    exact ⟨hs, rfl⟩
  | unlock k =>
    simp only [step, Option.some.injEq, Prod.mk.injEq] at h
    obtain ⟨rfl, rfl⟩ := h
    exact ⟨by cases k <;> trivial, rfl⟩
  | unexp e =>
    refine ⟨?_, rfl⟩
    simp only [step] at h
    repeat' split at h
    all_goals simp at h
    all_goals obtain ⟨rfl, rfl⟩ := h
    all_goals first | trivial | (cases op <;> trivial)
  | amend rm =>
    refine ⟨?_, rfl⟩
    simp only [step] at h
    split at h <;> simp at h
    obtain ⟨rfl, rfl⟩ := h
    rename_i hs'
    cases op <;> simp [afterAmend] at hs' <;> subst hs' <;> trivial
  | miss k =>
    simp only [step, Option.some.injEq, Prod.mk.injEq] at h
    obtain ⟨rfl, rfl⟩ := h
    exact ⟨by split <;> trivial, rfl⟩
  | _ =>
    refine ⟨?_, rfl⟩
    simp only [step] at h
    repeat' split at h
    all_goals simp at h
    all_goals obtain ⟨rfl, rfl⟩ := h
    all_goals trivial

omit [DecidableEq K] [DecidableEq V] in
theorem Alone.prefix {A B : List (Ev (Op K V) (Res K V))} (h : Alone (A ++ B)) : Alone A := by
  intro A' B' i op e
  exact h A' (B' ++ B) i op (by rw [e]; simp)

/-- At most one call is active, and it knows the state. -/
theorem alone_inv {m : Conf (G K V) (Op K V) (Res K V) (Pt K V)} {H : List (Ev (Op K V) (Res K V))} {l : List (MTick K V)}
    (h : prog.Run prog.mach.start m H l) (ha : Alone H) :
    (∀ i op s, m.view i = some (op, .inl s) → SeqOk m.g op s ∧ ∀ j op' s', m.view j = some (op', .inl s') → i = j) ∧ l.countP Retry = 0 := by
  refine Prog.Run.induct (fun g v H l => Alone H → (∀ i op s, v i = some (op, .inl s) → SeqOk g op s ∧ ∀ j op' s', v j = some (op', .inl s') → i = j) ∧
    l.countP Retry = 0) ?_ ?_ ?_ ?_ h ha
  · intro _
    refine ⟨fun i op s h => ?_, rfl⟩
    simp [Conf.view, Prog.mach, Proc.view] at h
  · rintro m' H l i op hr ih hv ha
    obtain ⟨ih1, ih2⟩ := ih ha.prefix
    refine ⟨?_, ih2⟩
    have hx := hr.exec (P := prog) .init
    have hno : ∀ j op' s, m'.view j ≠ some (op', .inl s) := by
      intro j op' s hj
      obtain ⟨r, hr'⟩ := ha H [] i op rfl j op' (by simpa using ((prog.hist hx).1 j op').2 ⟨_, hj⟩)
      obtain ⟨o, ho⟩ := (prog.hist hx).2 j r (by simpa using hr')
      rw [hj] at ho; simp at ho
    intro j o s hj
    by_cases hji : j = i
    · subst hji
      simp only [upd_same, Option.some.injEq, Prod.mk.injEq, Sum.inl.injEq] at hj
      obtain ⟨rfl, rfl⟩ := hj
      refine ⟨trivial, fun j' o' s' hj' => ?_⟩
      by_cases hjj : j' = j
      · exact hjj.symm
      · rw [upd_ne _ _ hjj] at hj'; exact absurd hj' (hno _ _ _)
    · rw [upd_ne _ _ hji] at hj; exact absurd hj (hno _ _ _)
  · rintro m' H l i op s c g' x hr ih hv hs ha
    obtain ⟨ih1, ih2⟩ := ih ha
    have hx := hr.exec (P := prog) .init
    obtain ⟨gh, -, -, hI⟩ := simulation hx
    have hst := seq_step (by rintro m e rfl; exact (hI.floc i op _ hv).2.1) (ih1 i op s hv).1 hs
    refine ⟨?_, by simp [ih2, hst.2]⟩
    have hother : ∀ j, j ≠ i → ∀ o t, upd m'.view i (some (op, x)) j ≠ some (o, .inl t) := by
      intro j hj o t ht
      rw [upd_ne _ _ hj] at ht
      exact hj ((ih1 i op s hv).2 j o t ht).symm
    intro j o t hj
    by_cases hji : j = i
    · subst hji
      simp only [upd_same, Option.some.injEq, Prod.mk.injEq] at hj
      obtain ⟨rfl, rfl⟩ := hj
      refine ⟨hst.1, fun j' o' s' hj' => ?_⟩
      by_cases hjj : j' = j
      · exact hjj.symm
      · exact absurd hj' (hother _ hjj _ _)
    · exact absurd hj (hother _ hji _ _)
  · rintro m' H l i op r hr ih hv ha
    exact ih ha.prefix

/-- C95: calls that do not overlap take amortised constant time: `n` calls of `Load`, `Store`, `LoadOrStore`, `ComputeIfAbsent`, `ComputeIfPresent`,
`LoadAndDelete` and `Delete` take at most `15 n` steps. -/
theorem C95_amortized {m : Conf (G K V) (Op K V) (Res K V) (Pt K V)} {H : List (Ev (Op K V) (Res K V))} {l : List (MTick K V)}
    (h : prog.Run prog.mach.start m H l) (ha : Alone H) (hr : ∀ i f, Ev.inv i (Op.range f) ∉ H) : l.length ≤ 15 * calls H := by
  have h1 := C95_work h
  have h2 := (alone_inv h ha).2
  have h3 : (l.map snap).sum = 0 := by
    refine Prog.Run.induct (fun g v H l => (∀ i f, Ev.inv i (Op.range f) ∉ H) → (l.map snap).sum = 0) ?_ ?_ ?_ ?_ h hr
    · simp
    · intro m' H l i op _ ih _ hn
      exact ih fun i f hf => hn i f (List.mem_append_left _ hf)
    · intro m' H l i op s c g' x hr ih hv _ hn
      have hx := hr.exec (P := prog) .init
      simp only [List.map_append, List.map_cons, List.map_nil, List.sum_append, List.sum_cons, List.sum_nil, ih hn, Nat.add_zero, Nat.zero_add]
      cases op <;> try rfl
      rename_i f _
      exact absurd (by simpa using ((prog.hist hx).1 i (Op.range f)).2 ⟨_, hv⟩) (hn i f)
    · intro m' H l i op r _ ih _ hn
      exact ih fun i f hf => hn i f (List.mem_append_left _ hf)
  omega

/-! ## Misses -/

theorem step_same {g g' : G K V} {i c : Nat} {op : Op K V} {s : Pt K V} {x : Pt K V ⊕ Res K V} (h : step g i op s c = some (g', x))
    (h1 : ∀ k, s ≠ .miss k) (h2 : ∀ k, s ≠ .promote k) (h3 : s ≠ .rpromote) (h4 : ∀ rm, s ≠ .amend rm) :
    g'.misses = g.misses ∧ g'.amended = g.amended := by
  have hsd : ∀ {g g' : G K V} {k : K} {e : Nat}, g.setDirty k e = some g' → g'.misses = g.misses ∧ g'.amended = g.amended := by
    intro g g' k e h
    unfold G.setDirty at h
    split at h <;> simp at h
    subst h; exact ⟨rfl, rfl⟩
  cases s
  case locked =>
    simp only [step, Option.some.injEq, Prod.mk.injEq] at h
    obtain ⟨rfl, rfl⟩ := h
    cases op <;> simp only [lockedStep] <;> (try split) <;> (try split) <;> (try split) <;> simp
  case miss k => exact absurd rfl (h1 k)
  case promote k => exact absurd rfl (h2 k)
  case rpromote => exact absurd rfl h3
  case amend rm => exact absurd rfl (h4 rm)
  all_goals
    simp only [step] at h
    repeat' split at h
    all_goals first
      | (simp only [Option.some.injEq, Prod.mk.injEq, reduceCtorEq] at h; obtain ⟨rfl, rfl⟩ := h
         first | exact ⟨rfl, rfl⟩ | exact hsd (by assumption) | exact hsd (g' := ‹G K V›) (by assumption))
      | simp at h

omit [DecidableEq V] in
theorem size_noAdds {H₀ H : List (Ev (Op K V) (Res K V))} (h : NoAdds H₀ H) : size (H₀ ++ H) = size H₀ := by
  have : addedKeys H = [] := by
    refine List.filterMap_eq_nil_iff.2 fun e he => ?_
    cases e with
    | ret i r => rfl
    | inv i op => have := h.2 i op he; cases op <;> simp_all [Op.adds]
  rw [size, size, addedKeys_append, this, List.append_nil]

omit [DecidableEq K] [DecidableEq V] in
theorem NoAdds.prefix {H₀ A B : List (Ev (Op K V) (Res K V))} (h : NoAdds H₀ (A ++ B)) : NoAdds H₀ A :=
  ⟨h.1, fun i op hi => h.2 i op (List.mem_append_left _ hi)⟩

/-- No active call adds a key. -/
theorem noAdds_active {m : Conf (G K V) (Op K V) (Res K V) (Pt K V)} {H₀ H : List (Ev (Op K V) (Res K V))} (h : prog.mach.Exec m (H₀ ++ H))
    (hn : NoAdds H₀ H) {i : Nat} {op : Op K V} {s : Pt K V} (hv : m.view i = some (op, .inl s)) : op.adds = false := by
  have := ((prog.hist h).1 i op).2 ⟨_, hv⟩
  rcases List.mem_append.1 this with h1 | h1
  · refine hn.1 i op h1 fun r hr => ?_
    obtain ⟨o, ho⟩ := (prog.hist h).2 i r (List.mem_append_left _ hr)
    rw [hv] at ho; simp at ho
  · exact hn.2 i op h1

theorem misses_inv {m m' : Conf (G K V) (Op K V) (Res K V) (Pt K V)} {H₀ H : List (Ev (Op K V) (Res K V))} {l : List (MTick K V)}
    (h₀ : prog.mach.Exec m H₀) (h : prog.Run m m' H l) (hn : NoAdds H₀ H) :
    (m'.g.amended = true → l.countP Miss ≤ m'.g.misses) ∧ (m'.g.amended = false → l.countP Miss ≤ max 1 (size H₀)) := by
  refine Prog.Run.induct (fun g v H l => NoAdds H₀ H → (g.amended = true → l.countP Miss ≤ g.misses) ∧
    (g.amended = false → l.countP Miss ≤ max 1 (size H₀))) ?_ ?_ ?_ ?_ h hn
  · intro _; exact ⟨fun _ => Nat.zero_le _, fun _ => Nat.zero_le _⟩
  · intro m' H l i op _ ih _ hn; exact ih hn.prefix
  · rintro m' H l i op s c g' x hr ih hv hs hn
    have ih := ih hn
    have hx := hr.exec h₀
    have hc := counter hx
    have hD := dirty_size hx
    rw [size_noAdds hn] at hc hD
    simp only [List.countP_append, List.countP_singleton]
    have hJ := hc.2 i op s hv
    by_cases h1 : ∃ k, s = .miss k
    · obtain ⟨k, rfl⟩ := h1
      have hJ := hJ rfl
      simp only [prog, step, Option.some.injEq, Prod.mk.injEq] at hs
      obtain ⟨rfl, rfl⟩ := hs
      have := ih.1 hJ.2
      refine ⟨fun _ => ?_, fun h => by simp [hJ.2] at h⟩
      simp [Miss]; exact this
    by_cases h2 : ∃ k, s = .promote k
    · obtain ⟨k, rfl⟩ := h2
      have hJ := hJ rfl
      simp only [prog, step, Option.some.injEq, Prod.mk.injEq] at hs
      obtain ⟨rfl, rfl⟩ := hs
      have := ih.1 hJ.2.1
      refine ⟨fun h => by simp [G.promoted] at h, fun _ => ?_⟩
      have h3 := hJ.1
      simp [Miss]; omega
    by_cases h3 : s = .rpromote
    · subst h3
      have hJ : Q m'.g := hJ rfl
      simp only [prog, step, Option.some.injEq, Prod.mk.injEq] at hs
      obtain ⟨rfl, rfl⟩ := hs
      refine ⟨fun h => by simp [G.promoted] at h, fun _ => ?_⟩
      simp only [Miss, Bool.false_eq_true, if_false, Nat.add_zero]
      cases ha : m'.g.amended with
      | true => have := ih.1 ha; have := hJ.2 ha; omega
      | false => exact ih.2 ha
    by_cases h4 : ∃ rm, s = .amend rm
    · obtain ⟨rm, rfl⟩ := h4
      obtain ⟨gh, -, -, hI⟩ := simulation hx
      have := (hI.floc i op _ hv).2
      rw [noAdds_active hx hn hv] at this; simp at this
    · obtain ⟨h5, h6⟩ := step_same hs (by simpa using h1) (by simpa using h2) h3 (by simpa using h4)
      have : Miss (⟨m'.g, i, op, s, c⟩ : MTick K V) = false := by cases s <;> first | rfl | (exfalso; exact h1 ⟨_, rfl⟩)
      rw [this, h5, h6]
      simpa using ih
  · intro m' H l i op r _ ih _ hn; exact ih hn.prefix

/-- C95: when no more keys are added, the number of calls that have to look into `m.dirty` with the lock is at most the number of keys ever
stored (or one), however many calls of `Load`, `Delete`, `Range` follow. -/
theorem C95_misses {m m' : Conf (G K V) (Op K V) (Res K V) (Pt K V)} {H₀ H : List (Ev (Op K V) (Res K V))} {l : List (MTick K V)}
    (h₀ : prog.mach.Exec m H₀) (h : prog.Run m m' H l) (hn : NoAdds H₀ H) : l.countP Miss ≤ max 1 (size H₀) := by
  have h1 := misses_inv h₀ h hn
  have hx := h.exec h₀
  have hc := counter hx
  have hD := dirty_size hx
  rw [size_noAdds hn] at hc hD
  cases ha : m'.g.amended with
  | false => exact h1.2 ha
  | true =>
    refine Nat.le_trans (h1.1 ha) ?_
    have hQ : Q m'.g → m'.g.misses ≤ max 1 (size H₀) := fun h => by have := h.2 ha; omega
    cases hm : m'.g.mu with
    | none => exact hQ (hc.1 hm)
    | some i =>
      obtain ⟨gh, -, -, hI⟩ := simulation hx
      obtain ⟨op, s, hv, hs⟩ := hI.muIn i hm
      have := hc.2 i op s hv hs
      cases s <;> first | exact hQ this | exact Nat.le_of_lt this.1 | exact this.1

/-! ## Acquisitions of the lock -/

/-- Every acquisition of the lock by `Load`, `LoadAndDelete` and `Delete` is followed by a miss, when calls do not overlap. -/
theorem locks_inv {m m' : Conf (G K V) (Op K V) (Res K V) (Pt K V)} {H₀ H : List (Ev (Op K V) (Res K V))} {l : List (MTick K V)}
    (h₀ : prog.mach.Exec m H₀) (h : prog.Run m m' H l) (ha : Alone (H₀ ++ H))
    (hn : ∀ i op, Ev.inv i op ∈ H₀ → (∀ r, Ev.ret i r ∉ H₀) → op.looks = true) (hn' : ∀ i op, Ev.inv i op ∈ H → op.looks = true) :
    l.countP Locks ≤ l.countP Miss ∨ (l.countP Locks ≤ l.countP Miss + 1 ∧
      ∃ i op s, m'.view i = some (op, .inl s) ∧ op.looks = true ∧ (s = .locked ∨ ∃ k, s = .miss k)) := by
  refine Prog.Run.induct (fun g v H l => Alone (H₀ ++ H) → (∀ i op, Ev.inv i op ∈ H → op.looks = true) → (l.countP Locks ≤ l.countP Miss ∨
    (l.countP Locks ≤ l.countP Miss + 1 ∧ ∃ i op s, v i = some (op, .inl s) ∧ op.looks = true ∧ (s = .locked ∨ ∃ k, s = .miss k)))) ?_ ?_ ?_ ?_ h ha hn'
  · intro _ _; exact .inl (Nat.le_refl _)
  · intro m' H l i op hr ih hv ha hn'
    rw [← List.append_assoc] at ha
    rcases ih ha.prefix fun i op hi => hn' i op (List.mem_append_left _ hi) with h1 | ⟨h1, j, o, s, hj, h2⟩
    · exact .inl h1
    · have hji : j ≠ i := by rintro rfl; rw [hv] at hj; simp at hj
      exact .inr ⟨h1, j, o, s, by rw [upd_ne _ _ hji]; exact hj, h2⟩
  · rintro m' H l i op s c g' x hr ih hv hs ha hn'
    have ih := ih ha hn'
    have hx := hr.exec h₀
    obtain ⟨l', hr'⟩ := Prog.exec_run hx
    obtain ⟨hseq, -⟩ := alone_inv hr' ha
    have hl : op.looks = true := by
      have := ((prog.hist hx).1 i op).2 ⟨_, hv⟩
      rcases List.mem_append.1 this with h1 | h1
      · refine hn i op h1 fun r hr => ?_
        obtain ⟨o, ho⟩ := (prog.hist hx).2 i r (List.mem_append_left _ hr)
        rw [hv] at ho; simp at ho
      · exact hn' i op h1
    simp only [List.countP_append, List.countP_singleton]
    by_cases h1 : s = .lock
    · subst h1
      simp only [prog, step] at hs
      split at hs <;> simp at hs
      obtain ⟨rfl, rfl⟩ := hs
      right
      refine ⟨?_, i, op, .locked, by simp, hl, .inl rfl⟩
      rcases ih with h2 | ⟨-, j, o, t, hj, -, ht⟩
      · simp [Locks, Miss]; exact h2
      · have := (hseq i op _ hv).2 j o t hj
        subst this
        rw [hv] at hj
        simp only [Option.some.injEq, Prod.mk.injEq, Sum.inl.injEq] at hj
        rcases ht with ht | ⟨k, ht⟩ <;> rw [ht] at hj <;> simp at hj
    · have hL : Locks (⟨m'.g, i, op, s, c⟩ : MTick K V) = false := by cases s <;> first | rfl | exact absurd rfl h1
      rw [hL]
      by_cases h2 : ∃ k, s = .miss k
      · obtain ⟨k, rfl⟩ := h2
        left
        simp [Miss]
        rcases ih with h2 | ⟨h2, -⟩
        · exact Nat.le_succ_of_le h2
        · exact h2
      · have hM : Miss (⟨m'.g, i, op, s, c⟩ : MTick K V) = false := by cases s <;> first | rfl | exact absurd ⟨_, rfl⟩ h2
        rw [hM]
        simp only [Bool.false_eq_true, if_false, Nat.add_zero]
        rcases ih with h3 | ⟨h3, j, o, t, hj, ho, ht⟩
        · exact .inl h3
        · have := (hseq i op _ hv).2 j o t hj
          subst this
          have hab := (hseq i op _ hv).1
          rw [hv] at hj
          simp only [Option.some.injEq, Prod.mk.injEq, Sum.inl.injEq] at hj
          rcases ht with rfl | ⟨k, rfl⟩
          · obtain ⟨rfl, rfl⟩ := hj
            simp only [prog, step, Option.some.injEq, Prod.mk.injEq] at hs
            obtain ⟨rfl, rfl⟩ := hs
            refine .inr ⟨h3, i, op, (lockedStep m'.g op).2, by simp, hl, .inr ?_⟩
            cases op <;> simp only [Op.looks, Bool.false_eq_true] at hl
            all_goals
              obtain ⟨h4, h5⟩ := hab rfl _ rfl
              simp only [lockedStep, h4, h5, if_true]
              split <;> exact ⟨_, rfl⟩
          · exact absurd ⟨k, hj.2⟩ h2
  · intro m' H l i op r hr ih hv ha hn'
    rw [← List.append_assoc] at ha
    exact ih ha.prefix fun i op hi => hn' i op (List.mem_append_left _ hi)

/-- C95: once a map is only read and deleted from, by calls that do not overlap, at most as many of them take the lock as there are keys that
have ever been stored (or one). -/
theorem C95_locks {m m' : Conf (G K V) (Op K V) (Res K V) (Pt K V)} {H₀ H : List (Ev (Op K V) (Res K V))} {l : List (MTick K V)}
    (h₀ : prog.mach.Exec m H₀) (h : prog.Run m m' H l) (ha : Alone (H₀ ++ H))
    (hn : ∀ i op, Ev.inv i op ∈ H₀ → (∀ r, Ev.ret i r ∉ H₀) → op.looks = true) (hn' : ∀ i op, Ev.inv i op ∈ H → op.looks = true) :
    l.countP Locks ≤ max 1 (size H₀) := by
  have hla : ∀ op : Op K V, op.looks = true → op.adds = false := by intro op; cases op <;> simp [Op.looks, Op.adds]
  have hna : NoAdds H₀ H := ⟨fun i op h1 h2 => hla op (hn i op h1 h2), fun i op h1 => hla op (hn' i op h1)⟩
  have hmiss := C95_misses h₀ h hna
  rcases locks_inv h₀ h ha hn hn' with h1 | ⟨h1, i, op, s, hv, hl, hs⟩
  · exact Nat.le_trans h1 hmiss
  · have hx := h.exec h₀
    have hc := counter hx
    have hD := dirty_size hx
    rw [size_noAdds hna] at hc hD
    have hi := (misses_inv h₀ h hna).1
    rcases hs with rfl | ⟨k, rfl⟩
    · obtain ⟨l', hr'⟩ := Prog.exec_run hx
      have hab := ((alone_inv hr' ha).1 i op _ hv).1
      have ham : m'.g.amended = true := by
        cases op <;> simp only [Op.looks, Bool.false_eq_true] at hl
        all_goals exact (hab rfl _ rfl).2
      have := (hc.2 i op _ hv rfl).2 ham
      have := hi ham
      omega
    · have hJ := hc.2 i op _ hv rfl
      have h2 := hi hJ.2
      have h3 := hJ.1
      omega

/-! ## Examples -/

/-- Two keys are stored; then the first one is loaded three times. -/
def demoStores : List (Act (Op Nat Nat)) := [.inv 1 (.store 0 5)] ++ runs 9 1 ++ [.inv 2 (.store 1 6)] ++ runs 6 2

/-- For the concrete cases beside the theorems. -/
def demoLoads : List (Act (Op Nat Nat)) := [.inv 3 (.load 0)] ++ runs 7 3 ++ [.inv 4 (.load 0)] ++ runs 8 4 ++ [.inv 5 (.load 0)] ++ runs 3 5

/-- For the concrete cases beside the theorems. -/
def demoH₀ : List (Ev (Op Nat Nat) (Res Nat Nat)) := [.inv 1 (.store 0 5), .ret 1 .unit, .inv 2 (.store 1 6), .ret 2 .unit]

/-- For the concrete cases beside the theorems. -/
def demoH : List (Ev (Op Nat Nat) (Res Nat Nat)) :=
  [.inv 3 (.load 0), .ret 3 (.value (some 5)), .inv 4 (.load 0), .ret 4 (.value (some 5)), .inv 5 (.load 0), .ret 5 (.value (some 5))]

/-- The first two loads take the lock, the third one does not. -/
theorem demoCost : ∃ m m' l₀ l, prog.Run prog.mach.start m demoH₀ l₀ ∧ prog.Run m m' demoH l ∧ l₀.length = 13 ∧ l.length = 15 ∧ l.countP Locks = 2 ∧
    l.countP Miss = 2 := by
  obtain ⟨H, h1, h2⟩ := Prog.play_run (prog (K := Nat) (V := Nat)) demoStores prog.mach.start []
    ((prog.mach.play (prog.mach.start, []) demoStores).get rfl) (by rfl)
  obtain ⟨H', h3, h4⟩ := Prog.play_run (prog (K := Nat) (V := Nat)) demoLoads ((prog.mach.play (prog.mach.start, []) demoStores).get rfl).1 []
    ((prog.mach.play (((prog.mach.play (prog.mach.start, []) demoStores).get rfl).1, []) demoLoads).get rfl) (by rfl)
  have e1 : H = demoH₀ := by rw [List.nil_append] at h1; rw [← h1]; rfl
  have e2 : H' = demoH := by rw [List.nil_append] at h3; rw [← h3]; rfl
  rw [e1] at h2
  rw [e2] at h4
  exact ⟨_, _, _, _, h2, h4, rfl, rfl, rfl, rfl⟩

/-- The events of completed calls made one after the other. -/
def oneByOne : List (Nat × Op K V × Res K V) → List (Ev (Op K V) (Res K V))
  | [] => []
  | (i, op, r) :: l => .inv i op :: .ret i r :: oneByOne l

omit [DecidableEq K] [DecidableEq V] in
theorem oneByOne_alone (L : List (Nat × Op K V × Res K V)) : Alone (oneByOne L) := by
  induction L with
  | nil => intro A B i op h; simp [oneByOne] at h
  | cons x L ih =>
    obtain ⟨i₀, op₀, r₀⟩ := x
    intro A B i op h j op' hj
    match A, h, hj with
    | [a], h, hj => simp [oneByOne] at h
    | a :: b :: A, h, hj =>
      simp only [oneByOne, List.cons_append, List.cons.injEq] at h
      obtain ⟨rfl, rfl, h⟩ := h
      simp only [List.mem_cons, Ev.inv.injEq, reduceCtorEq, false_or] at hj
      rcases hj with ⟨rfl, -⟩ | hj
      · exact ⟨r₀, by simp⟩
      · obtain ⟨r, hr⟩ := ih A B i op h j op' hj
        exact ⟨r, by simp [hr]⟩

theorem demoAlone : Alone (demoH₀ ++ demoH) :=
  oneByOne_alone [(1, .store 0 5, .unit), (2, .store 1 6, .unit), (3, .load 0, .value (some 5)), (4, .load 0, .value (some 5)),
    (5, .load 0, .value (some 5))]

example : ∃ m l, prog.Run prog.mach.start m (demoH₀ ++ demoH) l ∧ l.length = 28 ∧ l.length ≤ 15 * calls (demoH₀ ++ demoH) := by
  obtain ⟨m, m', l₀, l, h1, h2, h3, h4, -, -⟩ := demoCost
  exact ⟨m', l₀ ++ l, h1.trans h2, by simp [h3, h4], C95_amortized (h1.trans h2) demoAlone (by simp [demoH₀, demoH])⟩

example : ∃ m m' l, prog.Run m m' demoH l ∧ l.countP Locks = 2 ∧ l.countP Locks ≤ max 1 (size demoH₀) ∧ l.countP Miss ≤ max 1 (size demoH₀) ∧
    size demoH₀ = 2 := by
  obtain ⟨m, m', l₀, l, h1, h2, h3, h4, h5, h6⟩ := demoCost
  refine ⟨m, m', l, h2, h5, C95_locks (h1.exec .init) h2 demoAlone ?_ ?_, C95_misses (h1.exec .init) h2 ?_, rfl⟩
  · intro i op hi hr
    simp [demoH₀] at hi hr
    grind
  · intro i op hi
    simp [demoH] at hi
    rcases hi with ⟨-, rfl⟩ | ⟨-, rfl⟩ | ⟨-, rfl⟩ <;> rfl
  · refine ⟨?_, ?_⟩
    · intro i op hi hr
      simp [demoH₀] at hi hr
      grind
    · intro i op hi
      simp [demoH] at hi
      rcases hi with ⟨-, rfl⟩ | ⟨-, rfl⟩ | ⟨-, rfl⟩ <;> rfl

example : ∃ m l, prog.Run prog.mach.start m demoH₀ l ∧ l.length ≤ 15 * calls demoH₀ + 2 * l.countP Retry + 5 * (l.map snap).sum := by
  obtain ⟨m, m', l₀, l, h1, -⟩ := demoCost
  exact ⟨m, l₀, h1, C95_work h1⟩

end Verif.XSync.MapConc

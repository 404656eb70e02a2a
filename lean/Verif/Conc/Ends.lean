import Verif.Conc.Prog
/-!
# Programs whose calls take finitely many steps

If the steps a call can take by itself, whatever the shared state, cannot go on for ever, then a program without new calls cannot go on for
ever either, whatever the schedule.
-/
namespace Verif.Conc

variable {G Op Res S : Type}

/-- `x'` can follow `x` in a call of `op`, in some shared state. -/
def Prog.Own (P : Prog G Op Res S) (op : Op) (x' x : S ⊕ Res) : Prop :=
  ∃ s g i c g', x = .inl s ∧ P.step g i op s c = some (g', x')

/-- `m'` can follow `m` without a new call. -/
def Prog.Moves (P : Prog G Op Res S) (m' m : Conf G Op Res S) : Prop := ∃ l i c, P.mach.next m i c = some (l, m')

/-- The same for the state of one call. -/
inductive Prog.PMove (P : Prog G Op Res S) : Proc Op Res S → Proc Op Res S → Prop
  | step {op s s'} : P.Own op (.inl s') (.inl s) → P.PMove (.at op s') (.at op s)
  | res {op s r} : P.Own op (.inr r) (.inl s) → P.PMove (.ret op r) (.at op s)
  | ret {op r} : P.PMove (.done op r) (.ret op r)

theorem Prog.acc_done {P : Prog G Op Res S} {op : Op} {r : Res} : Acc P.PMove (.done op r) := ⟨_, fun _ h => by cases h⟩
theorem Prog.acc_ret {P : Prog G Op Res S} {op : Op} {r : Res} : Acc P.PMove (.ret op r) := ⟨_, fun _ h => by cases h; exact acc_done⟩
theorem Prog.acc_idle {P : Prog G Op Res S} : Acc P.PMove .idle := ⟨_, fun _ h => by cases h⟩

theorem Prog.acc_at {P : Prog G Op Res S} {op : Op} {x : S ⊕ Res} (h : Acc (P.Own op) x) : ∀ s, x = .inl s → Acc P.PMove (.at op s) := by
  induction h with
  | intro x _ ih =>
    rintro s rfl
    refine ⟨_, fun p hp => ?_⟩
    cases hp with
    | step h => exact ih _ h _ rfl
    | res h => exact acc_ret

/-- One of the things with a number below `n` goes down. -/
def Below {X : Type} (R : X → X → Prop) (n : Nat) (f' f : Nat → X) : Prop := ∃ i, i < n ∧ R (f' i) (f i) ∧ ∀ j, j ≠ i → f' j = f j

theorem acc_below {X : Type} {R : X → X → Prop} : ∀ (n : Nat) (f : Nat → X), (∀ i, i < n → Acc R (f i)) → Acc (Below R n) f
  | 0, f, _ => ⟨_, fun _ ⟨_, h, _⟩ => absurd h (Nat.not_lt_zero _)⟩
  | n + 1, f, h => by
    have main : ∀ x, Acc R x → ∀ f, f n = x → (∀ i, i < n → Acc R (f i)) → Acc (Below R (n + 1)) f := by
      intro x hx
      induction hx with
      | intro x _ ihx =>
        intro f hf hall
        have hacc := acc_below n f hall
        induction hacc with
        | intro f _ ihf =>
          refine ⟨_, fun f' ⟨i, hi, hm, hj⟩ => ?_⟩
          by_cases hin : i = n
          · subst hin
            exact ihx _ (hf ▸ hm) f' rfl fun j hj' => by rw [hj j (Nat.ne_of_lt hj')]; exact hall j hj'
          · have hlt : i < n := by omega
            refine ihf f' ⟨i, hlt, hm, hj⟩ ?_ ?_
            · rw [hj n (fun e => hin e.symm), hf]
            · intro j hj'
              by_cases hji : j = i
              · subst hji; exact (hall j hj').inv hm
              · rw [hj j hji]; exact hall j hj'
    exact main _ (h n (by omega)) f rfl fun i hi => h i (by omega)

theorem Prog.move_call {P : Prog G Op Res S} {m m' : Conf G Op Res S} (h : P.Moves m' m) :
    ∃ i, m.pc i ≠ .idle ∧ P.PMove (m'.pc i) (m.pc i) ∧ ∀ j, j ≠ i → m'.pc j = m.pc j := by
  obtain ⟨l, i, c, hn⟩ := h
  refine ⟨i, ?_⟩
  simp only [Prog.mach] at hn
  cases hpc : m.pc i with
  | idle => simp [hpc] at hn
  | done _ _ => simp [hpc] at hn
  | ret op r =>
    simp only [hpc, Option.some.injEq, Prod.mk.injEq] at hn
    obtain ⟨_, rfl⟩ := hn
    exact ⟨by simp, by simp only [upd_same]; exact .ret, fun j hj => upd_ne _ _ hj⟩
  | «at» op s =>
    simp only [hpc] at hn
    cases hst : P.step m.g i op s c with
    | none => simp [hst] at hn
    | some y =>
      obtain ⟨g', x⟩ := y
      cases x <;> simp only [hst, Option.some.injEq, Prod.mk.injEq] at hn <;> obtain ⟨_, rfl⟩ := hn <;>
        refine ⟨by simp, ?_, fun j hj => upd_ne _ _ hj⟩ <;> simp only [upd_same]
      · exact .step ⟨_, _, _, _, _, rfl, hst⟩
      · exact .res ⟨_, _, _, _, _, rfl, hst⟩

/-- In every execution finitely many calls have been made, and the steps of each that are left are well-founded. -/
theorem Prog.acc_exec {P : Prog G Op Res S} (hP : ∀ op, Acc (P.Own op) (.inl (P.begin op))) {m : Conf G Op Res S} {H : List (Ev Op Res)}
    (h : P.mach.Exec m H) : (∃ n, ∀ i, n ≤ i → m.pc i = .idle) ∧ ∀ i, Acc P.PMove (m.pc i) := by
  have key : ∀ m l m', ((∃ n, ∀ i, n ≤ i → m.pc i = .idle) ∧ ∀ i, Acc P.PMove (m.pc i)) → P.mach.Step m l m' →
      (∃ n, ∀ i, n ≤ i → m'.pc i = .idle) ∧ ∀ i, Acc P.PMove (m'.pc i) := by
    rintro m l m' ⟨⟨n, hn⟩, ha⟩ hs
    cases hs with
    | inv i op _ hi =>
      simp only [Prog.mach] at hi
      split at hi
      · simp only [Option.some.injEq] at hi
        subst hi
        refine ⟨⟨max n (i + 1), fun j hj => ?_⟩, fun j => ?_⟩
        · have : j ≠ i := by omega
          simp only [upd_ne _ _ this]; exact hn j (by omega)
        · by_cases hji : j = i
          · subst hji; simp only [upd_same]; exact acc_at (hP op) _ rfl
          · simp only [upd_ne _ _ hji]; exact ha j
      · simp at hi
    | run i c _ _ hn' =>
      obtain ⟨j, h1, h2, h3⟩ := P.move_call ⟨_, _, _, hn'⟩
      refine ⟨⟨n, fun k hk => ?_⟩, fun k => ?_⟩
      · by_cases hkj : k = j
        · subst hkj; exact absurd (hn k hk) h1
        · rw [h3 k hkj]; exact hn k hk
      · by_cases hkj : k = j
        · subst hkj; exact (ha k).inv h2
        · rw [h3 k hkj]; exact ha k
  unfold Mach.Exec at h
  induction h with
  | init => exact ⟨⟨0, fun _ _ => rfl⟩, fun _ => acc_idle⟩
  | tau _ hs ih => exact key _ _ _ ih hs
  | ev _ hs ih => exact key _ _ _ ih hs

/-- Without new calls every execution ends. -/
theorem Prog.ends {P : Prog G Op Res S} (hP : ∀ op, Acc (P.Own op) (.inl (P.begin op))) {m : Conf G Op Res S} {H : List (Ev Op Res)}
    (h : P.mach.Exec m H) : Acc P.Moves m := by
  obtain ⟨⟨n, hn⟩, ha⟩ := P.acc_exec hP h
  have main : ∀ f, Acc (Below P.PMove n) f → ∀ m : Conf G Op Res S, m.pc = f → (∀ i, n ≤ i → m.pc i = .idle) → Acc P.Moves m := by
    intro f hf
    induction hf with
    | intro f _ ih =>
      rintro m rfl hn
      refine ⟨_, fun m' hm => ?_⟩
      obtain ⟨i, h1, h2, h3⟩ := P.move_call hm
      have hi : i < n := by
        rcases Nat.lt_or_ge i n with h | h
        · exact h
        · exact absurd (hn i h) h1
      refine ih m'.pc ⟨i, hi, h2, h3⟩ m' rfl fun j hj => ?_
      rw [h3 j (by omega)]; exact hn j hj
  exact main _ (acc_below n m.pc fun i _ => ha i) m rfl hn


/-! ## Retry loops

Calls that try again when another call has interfered can go on as long as others interfere. The weight of a state is then made of three parts,
added up for all calls: what no interference can add to (`A`), the interferences a call can still cause (`R`), and the steps a call has left
if nobody interferes (`T`, which depends on the shared state). -/

/-- The sum of the weights of the calls with a number below `n`. -/
def total (w : Nat → Nat) : Nat → Nat
  | 0 => 0
  | n + 1 => total w n + w n

theorem total_le {w w' : Nat → Nat} (h : ∀ i, w' i ≤ w i) : ∀ n, total w' n ≤ total w n
  | 0 => Nat.le_refl _
  | n + 1 => Nat.add_le_add (total_le h n) (h n)

theorem total_congr {w w' : Nat → Nat} : ∀ n, (∀ i, i < n → w' i = w i) → total w' n = total w n
  | 0, _ => rfl
  | n + 1, h => by simp only [total]; rw [total_congr n fun i hi => h i (by omega), h n (by omega)]

theorem total_lt {w w' : Nat → Nat} {i : Nat} : ∀ n, i < n → w' i < w i → (∀ j, j ≠ i → w' j ≤ w j) → total w' n < total w n
  | 0, h, _, _ => absurd h (Nat.not_lt_zero _)
  | n + 1, h, hi, hj => by
    simp only [total]
    by_cases e : n = i
    · subst e
      have : total w' n ≤ total w n := by
        have aux : ∀ k, k ≤ n → total w' k ≤ total w k := by
          intro k
          induction k with
          | zero => intro _; exact Nat.le_refl _
          | succ k ih => intro hk; exact Nat.add_le_add (ih (by omega)) (hj k (by omega))
        exact aux n (Nat.le_refl n)
      omega
    · have h1 := total_lt n (by omega) hi hj
      have h2 := hj n e
      omega

/-- Weights of the points of calls. -/
structure Weights (G Op S : Type) where
  A : Op → S → Nat
  R : Op → S → Nat
  T : G → Op → S → Nat

/-- Proof only: first component of the measure of a call. -/
def Weights.a (W : Weights G Op S) : Proc Op Res S → Nat
  | .at op s => W.A op s
  | _ => 0

/-- Proof only: second component of the measure of a call. -/
def Weights.r (W : Weights G Op S) : Proc Op Res S → Nat
  | .at op s => W.R op s
  | _ => 0

/-- Proof only: third component of the measure of a call. -/
def Weights.t (W : Weights G Op S) (g : G) : Proc Op Res S → Nat
  | .at op s => W.T g op s + 2
  | .ret _ _ => 1
  | _ => 0

/-- Every step makes the call lighter. -/
structure Weights.Sinks (W : Weights G Op S) (P : Prog G Op Res S) : Prop where
  step : ∀ g i op s c g' s', P.step g i op s c = some (g', .inl s') → W.A op s' < W.A op s ∨ W.A op s' ≤ W.A op s ∧
    (W.R op s' < W.R op s ∨ W.R op s' ≤ W.R op s ∧ W.T g' op s' < W.T g op s ∧ ∀ op t, W.T g' op t ≤ W.T g op t)
  res : ∀ g i op s c g' r, P.step g i op s c = some (g', .inr r) → 0 < W.A op s ∨ 0 < W.R op s ∨ ∀ op t, W.T g' op t ≤ W.T g op t

theorem Weights.move {W : Weights G Op S} {P : Prog G Op Res S} (hW : W.Sinks P) {m m' : Conf G Op Res S} (h : P.Moves m' m) :
    ∃ i, m.pc i ≠ .idle ∧ (∀ j, j ≠ i → m'.pc j = m.pc j) ∧ (W.a (m'.pc i) < W.a (m.pc i) ∨ W.a (m'.pc i) ≤ W.a (m.pc i) ∧
      (W.r (m'.pc i) < W.r (m.pc i) ∨ W.r (m'.pc i) ≤ W.r (m.pc i) ∧ W.t m'.g (m'.pc i) < W.t m.g (m.pc i) ∧ ∀ q : Proc Op Res S, W.t m'.g q ≤ W.t m.g q)) := by
  obtain ⟨l, i, c, hn⟩ := h
  refine ⟨i, ?_⟩
  simp only [Prog.mach] at hn
  have tle : ∀ g g', (∀ op t, W.T g' op t ≤ W.T g op t) → ∀ q : Proc Op Res S, W.t g' q ≤ W.t g q := by
    intro g g' h q
    cases q <;> simp only [Weights.t, Nat.le_refl]
    exact Nat.add_le_add_right (h _ _) _
  cases hpc : m.pc i with
  | idle => simp [hpc] at hn
  | done _ _ => simp [hpc] at hn
  | ret op r =>
    simp only [hpc, Option.some.injEq, Prod.mk.injEq] at hn
    obtain ⟨_, rfl⟩ := hn
    refine ⟨by simp, fun j hj => upd_ne _ _ hj, ?_⟩
    simp [Weights.a, Weights.r, Weights.t]
  | «at» op s =>
    simp only [hpc] at hn
    cases hst : P.step m.g i op s c with
    | none => simp [hst] at hn
    | some y =>
      obtain ⟨g', x⟩ := y
      cases x with
      | inl s' =>
        simp only [hst, Option.some.injEq, Prod.mk.injEq] at hn
        obtain ⟨_, rfl⟩ := hn
        refine ⟨by simp, fun j hj => upd_ne _ _ hj, ?_⟩
        simp only [upd_same, Weights.a, Weights.r]
        rcases hW.step _ _ _ _ _ _ _ hst with h | ⟨h1, h | ⟨h2, h3, h4⟩⟩
        · exact .inl h
        · exact .inr ⟨h1, .inl h⟩
        · exact .inr ⟨h1, .inr ⟨h2, by simp only [Weights.t]; omega, tle _ _ h4⟩⟩
      | inr r =>
        simp only [hst, Option.some.injEq, Prod.mk.injEq] at hn
        obtain ⟨_, rfl⟩ := hn
        refine ⟨by simp, fun j hj => upd_ne _ _ hj, ?_⟩
        simp only [upd_same, Weights.a, Weights.r]
        rcases hW.res _ _ _ _ _ _ _ hst with h | h | h
        · exact .inl h
        · exact .inr ⟨Nat.zero_le _, .inl h⟩
        · exact .inr ⟨Nat.zero_le _, .inr ⟨Nat.zero_le _, by simp only [Weights.t]; omega, tle _ _ h⟩⟩

theorem Prog.finite_calls {P : Prog G Op Res S} {m : Conf G Op Res S} {H : List (Ev Op Res)} (h : P.mach.Exec m H) : ∃ n, ∀ i, n ≤ i → m.pc i = .idle := by
  have key : ∀ m l m', (∃ n, ∀ i, n ≤ i → m.pc i = .idle) → P.mach.Step m l m' → ∃ n, ∀ i, n ≤ i → m'.pc i = .idle := by
    rintro m l m' ⟨n, hn⟩ hs
    cases hs with
    | inv i op _ hi =>
      simp only [Prog.mach] at hi
      split at hi
      · simp only [Option.some.injEq] at hi
        subst hi
        refine ⟨max n (i + 1), fun j hj => ?_⟩
        have : j ≠ i := by omega
        simp only [upd_ne _ _ this]; exact hn j (by omega)
      · simp at hi
    | run i c _ _ hn' =>
      obtain ⟨j, h1, h2, h3⟩ := P.move_call ⟨_, _, _, hn'⟩
      refine ⟨n, fun k hk => ?_⟩
      by_cases hkj : k = j
      · subst hkj; exact absurd (hn k hk) h1
      · rw [h3 k hkj]; exact hn k hk
  unfold Mach.Exec at h
  induction h with
  | init => exact ⟨0, fun _ _ => rfl⟩
  | tau _ hs ih => exact key _ _ _ ih hs
  | ev _ hs ih => exact key _ _ _ ih hs

/-- Finitely many calls cannot go on for ever. -/
theorem Weights.Sinks.acc {W : Weights G Op S} {P : Prog G Op Res S} (hW : W.Sinks P) {m : Conf G Op Res S} {n : Nat} (hn : ∀ i, n ≤ i → m.pc i = .idle) :
    Acc P.Moves m := by
  have main : ∀ a r t (m : Conf G Op Res S), (∀ i, n ≤ i → m.pc i = .idle) → total (fun i => W.a (m.pc i)) n ≤ a →
      total (fun i => W.r (m.pc i)) n ≤ r → total (fun i => W.t m.g (m.pc i)) n ≤ t → Acc P.Moves m := by
    intro a
    induction a using Nat.strongRecOn with
    | ind a iha =>
      intro r
      induction r using Nat.strongRecOn with
      | ind r ihr =>
        intro t
        induction t using Nat.strongRecOn with
        | ind t iht =>
          intro m hn ha hr ht
          refine ⟨_, fun m' hm => ?_⟩
          obtain ⟨i, h1, h2, h3⟩ := W.move hW hm
          have hi : i < n := by
            rcases Nat.lt_or_ge i n with h | h
            · exact h
            · exact absurd (hn i h) h1
          have hn' : ∀ j, n ≤ j → m'.pc j = .idle := fun j hj => by rw [h2 j (by omega)]; exact hn j hj
          have le : ∀ f : Proc Op Res S → Nat, f (m'.pc i) ≤ f (m.pc i) → total (fun i => f (m'.pc i)) n ≤ total (fun i => f (m.pc i)) n := by
            intro f hf
            refine total_le (fun j => ?_) n
            by_cases hj : j = i
            · subst hj; exact hf
            · rw [h2 j hj]; exact Nat.le_refl _
          have lt : ∀ f : Proc Op Res S → Nat, f (m'.pc i) < f (m.pc i) → total (fun i => f (m'.pc i)) n < total (fun i => f (m.pc i)) n := by
            intro f hf
            exact total_lt n hi hf fun j hj => by rw [h2 j hj]; exact Nat.le_refl _
          rcases h3 with h | ⟨h4, h | ⟨h5, h6, h7⟩⟩
          · exact iha _ (Nat.lt_of_lt_of_le (lt _ h) ha) _ _ m' hn' (Nat.le_refl _) (Nat.le_refl _) (Nat.le_refl _)
          · exact ihr _ (Nat.lt_of_lt_of_le (lt _ h) hr) _ m' hn' (Nat.le_trans (le _ h4) ha) (Nat.le_refl _) (Nat.le_refl _)
          · refine iht _ (Nat.lt_of_lt_of_le ?_ ht) m' hn' (Nat.le_trans (le _ h4) ha) (Nat.le_trans (le _ h5) hr) (Nat.le_refl _)
            refine total_lt n hi h6 fun j hj => ?_
            rw [h2 j hj]; exact h7 _
  exact main _ _ _ m hn (Nat.le_refl _) (Nat.le_refl _) (Nat.le_refl _)

/-- Without new calls every execution ends. -/
theorem Weights.Sinks.ends {W : Weights G Op S} {P : Prog G Op Res S} (hW : W.Sinks P) {m : Conf G Op Res S} {H : List (Ev Op Res)}
    (h : P.mach.Exec m H) : Acc P.Moves m :=
  (P.finite_calls h).elim fun _ hn => hW.acc hn

/-- Where nothing can move nothing more happens. -/
theorem Prog.stuck_leads {P : Prog G Op Res S} {m m' : Conf G Op Res S} {H H' : List (Ev Op Res)} (hs : ∀ i c, P.mach.next m i c = none)
    (h : P.mach.Leads m H m' H') : H' = H := by
  cases h with
  | refl => rfl
  | tau hn _ => simp [hs] at hn
  | ev hn _ => simp [hs] at hn

/-- A call that has returned is done. -/
theorem Prog.mem_done {P : Prog G Op Res S} {m : Conf G Op Res S} {H : List (Ev Op Res)} (h : P.mach.Exec m H) :
    ∀ i r, Ev.ret i r ∈ H → ∃ op, m.pc i = .done op r := by
  have keep : ∀ {m m' : Conf G Op Res S} {l} {i op r}, P.mach.Step m l m' → m.pc i = .done op r → m'.pc i = .done op r := by
    intro m m' l i op r hs hd
    cases hs with
    | inv j op' _ he =>
      simp only [Prog.mach] at he
      split at he <;> simp only [Option.some.injEq, reduceCtorEq] at he
      rename_i hj
      subst he
      by_cases hij : i = j
      · subst hij; simp [hj] at hd
      · simpa [upd_ne _ _ hij] using hd
    | run j c _ _ he =>
      obtain ⟨k, _, h2, h3⟩ := P.move_call ⟨_, _, _, he⟩
      by_cases hik : i = k
      · subst hik; rw [hd] at h2; generalize m'.pc i = q at h2; cases h2
      · rw [h3 i hik]; exact hd
  unfold Mach.Exec at h
  induction h with
  | init => intro i r hr; simp at hr
  | tau _ hs ih => intro i r hr; exact (ih i r hr).imp fun _ hd => keep hs hd
  | @ev m m' H e _ hs ih =>
    intro i r hr
    rcases List.mem_append.mp hr with hr | hr
    · exact (ih i r hr).imp fun _ hd => keep hs hd
    · simp only [List.mem_singleton] at hr
      subst hr
      cases hs with
      | run j c _ _ he =>
        simp only [Prog.mach] at he
        split at he
        · simp at he
        · split at he <;> simp at he
        · rename_i op' r' hpc
          simp only [Option.some.injEq, Prod.mk.injEq, Ev.ret.injEq] at he
          obtain ⟨⟨rfl, rfl⟩, rfl⟩ := he
          exact ⟨op', by simp⟩
        · simp at he

/-- Nothing can move where every call has returned. -/
theorem Prog.stuck_of_returned {P : Prog G Op Res S} {m : Conf G Op Res S} {H : List (Ev Op Res)} (h : P.mach.Exec m H)
    (hd : ∀ i op, Ev.inv i op ∈ H → ∃ r, Ev.ret i r ∈ H) (i c : Nat) : P.mach.next m i c = none := by
  simp only [Prog.mach]
  have key : ∀ op x, m.view i = some (op, x) → ∃ op r, m.pc i = .done op r := fun op x hx => by
    obtain ⟨r, hr⟩ := hd i op (((P.hist h).1 i op).mpr ⟨x, hx⟩)
    obtain ⟨op', h'⟩ := P.mem_done h i r hr
    exact ⟨op', r, h'⟩
  cases hpc : m.pc i with
  | idle => rfl
  | done op r => rfl
  | «at» op s => obtain ⟨_, r, hr⟩ := key op (.inl s) (by simp [Conf.view, hpc, Proc.view]); simp [hpc] at hr
  | ret op r => obtain ⟨_, r, hr⟩ := key op (.inr r) (by simp [Conf.view, hpc, Proc.view]); simp [hpc] at hr

/-! ## Refinement -/

theorem Prog.step_moves {Q : Prog G Op Res S} {m : Conf G Op Res S} {i c : Nat} {op : Op} {s : S} {g' : G} {x : S ⊕ Res}
    (hv : m.view i = some (op, .inl s)) (hs : Q.step m.g i op s c = some (g', x)) :
    ∃ m' : Conf G Op Res S, Q.Moves m' m ∧ (∀ H, Q.mach.Exec m H → Q.mach.Exec m' H) ∧ m'.g = g' ∧ m'.view = upd m.view i (some (op, x)) := by
  have hp : m.pc i = .at op s := by
    simp only [Conf.view] at hv
    cases hq : m.pc i <;> simp [hq, Proc.view] at hv
    rw [hv.1, hv.2]
  cases x with
  | inl s' =>
    have hn : Q.mach.next m i c = some (none, ⟨g', upd m.pc i (.at op s')⟩) := by simp [Prog.mach, hp, hs]
    exact ⟨_, ⟨_, _, _, hn⟩, fun H h => .tau h (.run _ _ _ _ _ hn), rfl, view_upd ..⟩
  | inr r =>
    have hn : Q.mach.next m i c = some (none, ⟨g', upd m.pc i (.ret op r)⟩) := by simp [Prog.mach, hp, hs]
    exact ⟨_, ⟨_, _, _, hn⟩, fun H h => .tau h (.run _ _ _ _ _ hn), rfl, view_upd ..⟩

/-- Steps of a call that are no steps of the other program, and its return. -/
inductive Quiet (N : S → S → Prop) : Proc Op Res S → Proc Op Res S → Prop
  | step {op s s'} : N s' s → Quiet N (.at op s') (.at op s)
  | res {op s r} : Quiet N (.ret op r) (.at op s)
  | ret {op r} : Quiet N (.done op r) (.ret op r)

theorem quiet_acc {N : S → S → Prop} (hN : ∀ s, Acc N s) (p : Proc Op Res S) : Acc (Quiet N) p := by
  have hdone : ∀ op r, Acc (Quiet N) (.done op r : Proc Op Res S) := fun op r => ⟨_, fun _ h => by cases h⟩
  have hret : ∀ op r, Acc (Quiet N) (.ret op r : Proc Op Res S) := fun op r => ⟨_, fun _ h => by cases h; exact hdone _ _⟩
  cases p with
  | idle => exact ⟨_, fun _ h => by cases h⟩
  | done op r => exact hdone op r
  | ret op r => exact hret op r
  | «at» op s =>
    have := hN s
    induction this with
    | intro s _ ih =>
      refine ⟨_, fun q hq => ?_⟩
      cases hq with
      | step h => exact ih _ h
      | res => exact hret _ _

/-- A program ends if it refines one that ends, and the steps in which the other program does nothing cannot go on for ever. -/
theorem Prog.ends_of_refine {G' S' : Type} {P : Prog G Op Res S} {Q : Prog G' Op Res S'} {N : S → S → Prop} (hN : ∀ s, Acc N s)
    (Rel : G → View Op Res S → Conf G' Op Res S' → Prop)
    (hstep : ∀ g v m' i op s c g' x, Rel g v m' → v i = some (op, .inl s) → P.step g i op s c = some (g', x) →
      (Rel g' (upd v i (some (op, x))) m' ∧ ∀ s', x = .inl s' → N s' s) ∨ ∃ m1, Q.Moves m1 m' ∧ Rel g' (upd v i (some (op, x))) m1)
    {m : Conf G Op Res S} {H : List (Ev Op Res)} (h : P.mach.Exec m H) {m' : Conf G' Op Res S'} (hR : Rel m.g m.view m') (ha : Acc Q.Moves m') :
    Acc P.Moves m := by
  obtain ⟨n, hn⟩ := P.finite_calls h
  clear h
  induction ha generalizing m with
  | intro m' _ ih =>
    have hb := acc_below (R := Quiet N) n m.pc fun i _ => quiet_acc hN _
    generalize hf : m.pc = f at hb
    induction hb generalizing m with
    | intro f _ ihf =>
      subst hf
      refine ⟨_, fun m1 hm => ?_⟩
      obtain ⟨i, hi, -, h3⟩ := P.move_call hm
      have hin : i < n := by
        rcases Nat.lt_or_ge i n with h | h
        · exact h
        · exact absurd (hn i h) hi
      have hn1 : ∀ j, n ≤ j → m1.pc j = .idle := fun j hj => by rw [h3 j (by omega)]; exact hn j hj
      clear h3 hi
      obtain ⟨l, k, c, hk⟩ := hm
      simp only [Prog.mach] at hk
      have hkn : m.pc k ≠ .idle → k < n := fun hne => by
        rcases Nat.lt_or_ge k n with h | h
        · exact h
        · exact absurd (hn k h) hne
      cases hpc : m.pc k with
      | idle => simp [hpc] at hk
      | done _ _ => simp [hpc] at hk
      | ret op r =>
        simp only [hpc, Option.some.injEq, Prod.mk.injEq] at hk
        obtain ⟨_, rfl⟩ := hk
        refine ihf _ ⟨k, hkn (by simp [hpc]), ?_, fun j hj => upd_ne _ _ hj⟩ ?_ hn1 rfl
        · simp only [upd_same, hpc]; exact .ret
        · have : (⟨m.g, upd m.pc k (.done op r)⟩ : Conf G Op Res S).view = m.view := by
            funext j
            by_cases hj : j = k
            · subst hj; simp [Conf.view, hpc, Proc.view]
            · simp [Conf.view, upd_ne _ _ hj]
          rw [this]; exact hR
      | «at» op s =>
        simp only [hpc] at hk
        have hv : m.view k = some (op, .inl s) := by simp [Conf.view, hpc, Proc.view]
        cases hst : P.step m.g k op s c with
        | none => simp [hst] at hk
        | some y =>
          obtain ⟨g', x⟩ := y
          have key := hstep _ _ _ _ _ _ _ _ _ hR hv hst
          have go : m1.g = g' → m1.view = upd m.view k (some (op, x)) → (∀ j, j ≠ k → m1.pc j = m.pc j) →
              (∀ s', x = .inl s' → N s' s → Quiet N (m1.pc k) (m.pc k)) → (∀ r, x = .inr r → Quiet N (m1.pc k) (m.pc k)) → Acc P.Moves m1 := by
            intro e1 e2 e3 e4 e5
            rcases key with ⟨k1, k2⟩ | ⟨m2, k1, k2⟩
            · refine ihf m1.pc ⟨k, hkn (by simp [hpc]), ?_, e3⟩ (by rw [e1, e2]; exact k1) hn1 rfl
              cases x with
              | inl s' => exact e4 s' rfl (k2 s' rfl)
              | inr r => exact e5 r rfl
            · exact ih m2 k1 (by rw [e1, e2]; exact k2) hn1
          cases x with
          | inl s' =>
            simp only [hst, Option.some.injEq, Prod.mk.injEq] at hk
            obtain ⟨_, rfl⟩ := hk
            refine go rfl (view_upd ..) (fun j hj => upd_ne _ _ hj) (fun s'' e hN' => ?_) (fun r e => by simp at e)
            cases e
            simp only [upd_same, hpc]; exact .step hN'
          | inr r =>
            simp only [hst, Option.some.injEq, Prod.mk.injEq] at hk
            obtain ⟨_, rfl⟩ := hk
            refine go rfl (view_upd ..) (fun j hj => upd_ne _ _ hj) (fun s'' e hN' => by simp at e) (fun r e => ?_)
            simp only [upd_same, hpc]; exact .res

/-- Checked by evaluation: every call of the history has returned. -/
def returned : List (Ev Op Res) → List (Ev Op Res) → Bool
  | [], _ => true
  | .inv i _ :: l, H => (H.any fun | .ret j _ => j == i | _ => false) && returned l H
  | _ :: l, H => returned l H

theorem returned_spec {H : List (Ev Op Res)} : ∀ {l : List (Ev Op Res)}, returned l H = true → ∀ i op, Ev.inv i op ∈ l → ∃ r, Ev.ret i r ∈ H
  | [], _, i, op, h => by simp at h
  | .ret j r :: l, h, i, op, hi => by
    simp only [returned] at h
    rcases List.mem_cons.mp hi with hi | hi
    · cases hi
    · exact returned_spec h i op hi
  | .inv j o :: l, h, i, op, hi => by
    simp only [returned, Bool.and_eq_true] at h
    rcases List.mem_cons.mp hi with hi | hi
    · cases hi
      obtain ⟨e, he, h1⟩ := List.any_eq_true.mp h.1
      cases e with
      | inv _ _ => simp at h1
      | ret k r => simp only [beq_iff_eq] at h1; subst h1; exact ⟨r, he⟩
    · exact returned_spec h.2 i op hi

end Verif.Conc

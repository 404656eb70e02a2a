import Verif.Conc.Prog
/-!
# Infinite executions and fairness
-/
namespace Verif.Conc

variable {M G Op Res S : Type}

/-- `act` – a new call or a step of a call – leads from `m` to `m'`. -/
def Mach.Does (P : Mach M Op Res) (m : M) (act : Act Op) (m' : M) : Prop :=
  match act with
  | .inv i op => P.invoke m i op = some m'
  | .run i c => ∃ e, P.next m i c = some (e, m')

/-- An infinite execution: the states `σ 0, σ 1, …`, the first of which is reachable, and what happens between them – new calls and steps of calls. -/
structure Mach.Run (P : Mach M Op Res) (σ : Nat → M) (a : Nat → Act Op) : Prop where
  start : ∃ H, P.Exec (σ 0) H
  step : ∀ t, P.Does (σ t) (a t) (σ (t + 1))

/-- The scheduler is (weakly) fair: a call that can move from some time on moves at some later time. -/
def Mach.Fair (P : Mach M Op Res) (σ : Nat → M) (a : Nat → Act Op) : Prop :=
  ∀ i t, (∀ t', t ≤ t' → ∃ c x, P.next (σ t') i c = some x) → ∃ t', t ≤ t' ∧ ∃ c, a t' = .run i c

theorem Mach.Run.exec {P : Mach M Op Res} {σ : Nat → M} {a : Nat → Act Op} (h : P.Run σ a) : ∀ t, ∃ H, P.Exec (σ t) H
  | 0 => h.start
  | t + 1 => by
    obtain ⟨H, hH⟩ := h.exec t
    have hs := h.step t
    cases ha : a t with
    | inv i op => rw [ha] at hs; exact ⟨_, .ev hH (.inv _ _ _ _ hs)⟩
    | run i c =>
      rw [ha] at hs
      obtain ⟨e, he⟩ := hs
      cases e with
      | none => exact ⟨_, .tau hH (.run _ _ _ _ _ he)⟩
      | some e => exact ⟨_, .ev hH (.run _ _ _ _ _ he)⟩

/-- A step of one call does not change where the others are. -/
theorem Prog.run_other {P : Prog G Op Res S} {σ : Nat → Conf G Op Res S} {a : Nat → Act Op} (h : P.mach.Run σ a) {t i : Nat}
    (hi : (σ t).pc i ≠ .idle) (ha : ∀ c, a t ≠ .run i c) : (σ (t + 1)).pc i = (σ t).pc i := by
  have hs := h.step t
  cases hat : a t with
  | inv j op =>
    rw [hat] at hs
    simp only [Mach.Does, Prog.mach] at hs
    split at hs
    · rename_i hj
      simp only [Option.some.injEq] at hs
      rw [← hs]
      have : i ≠ j := by rintro rfl; exact hi hj
      simp only [upd_ne _ _ this]
    · simp at hs
  | run j c =>
    have hij : i ≠ j := by rintro rfl; exact ha c hat
    rw [hat] at hs
    obtain ⟨e, hs⟩ := hs
    simp only [Prog.mach] at hs
    split at hs
    · simp at hs
    · split at hs <;> simp only [Option.some.injEq, Prod.mk.injEq, reduceCtorEq] at hs <;> rw [← hs.2] <;> simp only [upd_ne _ _ hij]
    · simp only [Option.some.injEq, Prod.mk.injEq] at hs; rw [← hs.2]; simp only [upd_ne _ _ hij]
    · simp at hs

/-- A call that can move wherever the others are makes its next step. -/
theorem Prog.fair_step {P : Prog G Op Res S} {σ : Nat → Conf G Op Res S} {a : Nat → Act Op} (h : P.mach.Run σ a) (hf : P.mach.Fair σ a) {t i : Nat}
    (hi : (σ t).pc i ≠ .idle) (he : ∀ m : Conf G Op Res S, m.pc i = (σ t).pc i → ∃ c x, P.mach.next m i c = some x) :
    ∃ t', t ≤ t' ∧ (σ t').pc i = (σ t).pc i ∧ ∃ c, a t' = .run i c := by
  have stay : ∀ n, (∀ k, k < n → ∀ c, a (t + k) ≠ .run i c) → (σ (t + n)).pc i = (σ t).pc i := by
    intro n
    induction n with
    | zero => intro _; rfl
    | succ n ih =>
      intro hn
      have e := ih fun k hk => hn k (by omega)
      rw [← e]
      exact P.run_other h (t := t + n) (by rw [e]; exact hi) (hn n (by omega))
  by_cases hex : ∃ n c, a (t + n) = .run i c
  · have least : ∀ n, (∃ c, a (t + n) = .run i c) → ∃ n, (∃ c, a (t + n) = .run i c) ∧ ∀ k, k < n → ∀ c, a (t + k) ≠ .run i c := by
      intro n
      induction n using Nat.strongRecOn with
      | ind n ih =>
        intro hn
        by_cases hk : ∃ k, k < n ∧ ∃ c, a (t + k) = .run i c
        · obtain ⟨k, hk, hc⟩ := hk; exact ih k hk hc
        · exact ⟨n, hn, fun k hkn c hc => hk ⟨k, hkn, c, hc⟩⟩
    obtain ⟨n, hn⟩ := hex
    obtain ⟨n, hn, hk⟩ := least n hn
    exact ⟨t + n, by omega, stay n hk, hn⟩
  · have hall : ∀ k c, a (t + k) ≠ .run i c := fun k c hc => hex ⟨k, c, hc⟩
    obtain ⟨t', ht, c, hc⟩ := hf i t fun t' ht => by
      have e := stay (t' - t) fun k _ => hall k
      rw [Nat.add_sub_cancel' ht] at e
      exact he _ e
    exact absurd (by rw [Nat.add_sub_cancel' ht]; exact hc) (hall (t' - t) c)

end Verif.Conc

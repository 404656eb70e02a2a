import Verif.XRing.Spec
/-! # Helper lemmas for the ring -/
namespace Verif.XRing
open Verif.Go
variable {α : Type}

/-- Ring `r` of capacity `n` represents the log `log`. -/
structure Rep (n : Nat) (log : List α) (r : Ring α) : Prop where
  pos : 0 < n
  len : r.elements.length = n
  idx : r.index = log.length
  get : ∀ j, j < log.length → log.length ≤ j + n → r.elements[j % n]? = log[j]?

theorem rep_new (nil : α) {n : Int} (h : 1 ≤ n) :
    ∃ r, newRing nil n = some r ∧ Rep n.toNat [] r := by
  refine ⟨_, by rw [newRing, if_neg (by omega)], ?_⟩
  exact ⟨by omega, by simp, by simp, by simp⟩

theorem rep_newU (nil : α) {n : Nat} (h : 1 ≤ n) : Rep n [] (newRingU nil n) :=
  ⟨by omega, by simp [newRingU], by simp [newRingU], by simp⟩

theorem mod_ne {i j n : Nat} (h1 : i < j) (h2 : j < i + n) : i % n ≠ j % n := by
  intro h
  have h0 : 0 < n := by omega
  have a := Nat.div_add_mod i n
  have b := Nat.div_add_mod j n
  rw [h] at a
  have : n * (j / n) - n * (i / n) = j - i := by omega
  rw [← Nat.mul_sub] at this
  rcases Nat.eq_zero_or_pos (j / n - i / n) with hz | hp
  · rw [hz] at this; omega
  · have := Nat.le_mul_of_pos_right n hp
    omega

theorem rep_add {n : Nat} {log : List α} {r : Ring α} (h : Rep n log r) (v : α)
    (hl : (log.length : Int) + 1 < 2 ^ 63) :
    ∃ r', r.add v = some r' ∧ Rep n (log ++ [v]) r' := by
  have hp := h.pos
  have hm : r.index.tmod (n : Int) = ((log.length % n : Nat) : Int) := by
    rw [h.idx]; exact Int.ofNat_tmod _ _
  refine ⟨{ elements := r.elements.set (log.length % n) v, index := log.length + 1 }, ?_, ?_⟩
  · rw [Ring.add, h.len, if_neg (by omega)]
    simp only [hm]
    rw [if_neg (by omega), h.idx, wrap64_of_isInt64 ⟨by omega, by omega⟩, Int.toNat_natCast]
  · refine ⟨hp, by simp [h.len], by simp, ?_⟩
    intro j hj hjn
    simp only [List.length_append, List.length_singleton] at hj hjn
    rcases Nat.lt_or_eq_of_le (Nat.lt_succ_iff.mp hj) with hlt | heq
    · rw [List.getElem?_set_ne (by exact (mod_ne hlt (by omega)).symm), h.get j hlt (by omega)]
      rw [List.getElem?_append_left hlt]
    · subst heq
      rw [List.getElem?_set_self (by rw [h.len]; exact Nat.mod_lt _ hp)]
      simp

theorem copyLoop_eq {n : Nat} {es : List α} {log : List α} {s start : Nat} (hlen : es.length = n)
    (hs : start % n = s % n)
    (hget : ∀ j, s ≤ j → j < log.length → es[j % n]? = log[j]?) :
    ∀ (cnt i : Nat), s + i + cnt = log.length → copyLoop es start i cnt = some (log.drop (s + i)) := by
  intro cnt
  induction cnt with
  | zero => intro i h; simp [copyLoop, List.drop_eq_nil_of_le (show log.length ≤ s + i by omega)]
  | succ c ih =>
    intro i h
    have hlt : s + i < log.length := by omega
    have h1 : (start + i) % n = (s + i) % n := by
      rw [Nat.add_mod, hs, ← Nat.add_mod]
    rw [copyLoop, hlen, h1, hget _ (by omega) hlt, List.getElem?_eq_getElem hlt]
    rw [ih (i + 1) (by omega)]
    simp only [Option.bind_eq_bind, Option.bind_some, Option.pure_def]
    rw [List.drop_eq_getElem_cons hlt]
    rfl

theorem rep_take {n : Nat} {log : List α} {r : Ring α} (h : Rep n log r) :
    r.take = some (lastN n log) := by
  have hp := h.pos
  unfold Ring.take
  simp only [h.len, h.idx]
  by_cases hc : log.length > n
  · have hm : ((log.length : Int)).tmod (n : Int) = ((log.length % n : Nat) : Int) :=
      Int.ofNat_tmod _ _
    have hc' : (log.length : Int) > n := by omega
    have hn : ¬ ((n : Int) < 0) := by omega
    simp only [hc', if_true, hn, if_false, hm, Int.toNat_natCast]
    rw [copyLoop_eq (log := log) (s := log.length - n) h.len ?_ ?_ n 0 (by omega)]
    · rfl
    · rw [Nat.mod_mod, Nat.mod_eq_sub_mod (by omega)]
    · intro j h1 h2; exact h.get j h2 (by omega)
  · have hc' : ¬ (log.length : Int) > n := by omega
    have hn : ¬ ((log.length : Int) < 0) := by omega
    simp only [hc', if_false, hn, Int.toNat_natCast]
    rw [copyLoop_eq (log := log) (s := 0) h.len (by simp) ?_ log.length 0 (by omega)]
    · have : log.length - n = 0 := by omega
      simp [lastN, this]
    · intro j _ h2; exact h.get j h2 (by omega)

theorem rep_run {n : Nat} : ∀ (cs : List (Call α)) (log : List α) (r : Ring α), Rep n log r →
    (log.length + countAdds cs : Int) < 2 ^ 63 →
    ∃ r', run r cs = some (specRun n log cs, r') := by
  intro cs
  induction cs with
  | nil => intro log r _ _; exact ⟨r, rfl⟩
  | cons c cs ih =>
    intro log r h hb
    cases c with
    | add v =>
      simp only [countAdds] at hb
      obtain ⟨r1, e1, h1⟩ := rep_add h v (by omega)
      obtain ⟨r2, e2⟩ := ih (log ++ [v]) r1 h1 (by simp; omega)
      exact ⟨r2, by simp [run, e1, e2, specRun]⟩
    | take =>
      simp only [countAdds] at hb
      obtain ⟨r2, e2⟩ := ih log r h hb
      exact ⟨r2, by simp [run, rep_take h, e2, specRun]⟩

end Verif.XRing

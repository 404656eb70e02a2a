import Verif.Conc.Crash
import Verif.Conc.NestedEnds
/-!
# User functions that make calls and panic

`P.crash B` (`Crash.lean`) is again a program, so its calls can be nested (`Nested.lean`): the functions see of the calls they make whether
they returned or panicked, and a function can panic after it has made some calls. What follows carries over that executions end and that locks
have levels.
-/
namespace Verif.Conc

variable {G Op Res S : Type} {P : Prog G Op Res S} {F : Fns Op Res S} {F' : Fns Op (Option Res) S} {B : Op → S → Bool}

theorem crash_at {m : Conf G Op (Option Res) S} {m₀ : Conf G Op Res S} (ha : ∀ i, Alike B (m.view i) (m₀.view i)) {i : Nat} {op : Op} {s : S}
    (hp : m.pc i = .at op s) : m₀.pc i = .at op s := by
  have hv : m₀.view i = some (op, .inl s) := by simpa [Conf.view, hp, Proc.view, Alike] using ha i
  simp only [Conf.view] at hv
  cases hq : m₀.pc i <;> simp [hq, Proc.view] at hv
  rw [hv.1, hv.2]

/-- The measures of the program without panics do for the program with panics. -/
theorem Finitary.crash {rank : Op → Nat} {w : Op → S → Nat × Nat} (hW : Finitary P F rank w)
    (hr : ∀ {op : Op} {s : S} {tr : List (Op × Option Res)} {op' : Op}, F' op s tr = some op' → rank op' < rank op)
    (hf : ∀ op s, WellFounded (Longer F' op s)) (h0 : ∀ op s, F op s [] = none → F' op s [] = none)
    (hB : ∀ op s, B op s = true → lexLt (0, 0) (w op s)) : Finitary (P.crash B) F' rank w where
  rank := hr
  fns := hf
  down {m H i op s c g' x} h hp hs := by
    obtain ⟨m₀, h₀, hg, ha⟩ := crash_sim h
    rcases crash_cases hs with ⟨hb, _, rfl⟩ | ⟨c', y, hy, ⟨s', rfl, rfl⟩ | ⟨r, rfl, rfl⟩⟩
    · exact .inl (hB op s hb)
    · rw [← hg] at hy
      exact (hW.down h₀ (crash_at ha hp) hy).imp id fun h => ⟨h.1, h0 _ _ h.2⟩
    · rw [← hg] at hy
      exact (hW.down h₀ (crash_at ha hp) hy).imp id fun h => ⟨h.1, h0 _ _ h.2⟩

/-- If no function panics while its call holds a lock, the levels of the locks are those of the program without panics. -/
theorem Levels.crash {own : Op → S → Option Nat} {lvl : Op → Nat} {bound : Nat} (hL : Levels P F own lvl bound)
    (hF : ∀ op s tr op', F' op s tr = some op' → ∃ tr₀, F op s tr₀ = some op')
    (hB : ∀ {m : Conf G Op Res S} {H : List (Ev Op Res)}, P.mach.Exec m H → ∀ {i : Nat} {op : Op} {s : S}, m.pc i = .at op s → B op s = true → own op s = none) :
    Levels (P.crash B) F' own lvl bound where
  waits {m H} h {i op s} hp := by
    obtain ⟨m₀, h₀, hg, ha⟩ := crash_sim h
    have hp₀ := crash_at ha hp
    rcases hL.waits h₀ hp₀ with ⟨m', hn⟩ | ⟨ho, l, i', op', s', h1, h2, h3, h4⟩
    · left
      have : ∃ y, (P.crash B).step m.g i op s 0 = some y := by
        simp only [Prog.mach, hp₀, hg] at hn
        cases hb : B op s with
        | true => exact ⟨_, by simp only [Prog.crash, hb]; rfl⟩
        | false =>
          cases hx : P.step m.g i op s 0 with
          | none => simp [hx] at hn
          | some y =>
            obtain ⟨g', y⟩ := y
            cases y <;> exact ⟨_, by simp only [Prog.crash, hb, hx, lift]; rfl⟩
      obtain ⟨⟨g', y⟩, hy⟩ := this
      cases y with
      | inl s' => exact ⟨⟨g', upd m.pc i (.at op s')⟩, by simp [Prog.mach, hp, hy]⟩
      | inr r => exact ⟨⟨g', upd m.pc i (.ret op r)⟩, by simp [Prog.mach, hp, hy]⟩
    · refine .inr ⟨ho, l, i', op', s', h1, h2, ?_, h4⟩
      have hai := ha i'
      have hv : m₀.view i' = some (op', .inl s') := by simp [Conf.view, h3, Proc.view]
      rw [hv] at hai
      have no : B op' s' ≠ true := fun hb => by rw [hB h₀ h3 hb] at h4; simp at h4
      have panicked : ∀ {o : Op} {r : Option Res}, Alike B (some (o, .inr r)) (some (op', .inl s')) → False := by
        intro o r h
        cases r with
        | some r => simp [Alike] at h
        | none =>
          obtain ⟨t, hb, e⟩ := h
          simp only [Option.some.injEq, Prod.mk.injEq, Sum.inl.injEq] at e
          rw [← e.1, ← e.2] at hb
          exact no hb
      cases hq : m.pc i' with
      | idle => simp [Conf.view, hq, Proc.view, Alike] at hai
      | «at» o t =>
        simp only [Conf.view, hq, Proc.view, Alike, Option.some.injEq, Prod.mk.injEq, Sum.inl.injEq] at hai
        rw [hai.1, hai.2]
      | ret o r => simp only [Conf.view, hq, Proc.view] at hai; exact (panicked hai).elim
      | done o r => simp only [Conf.view, hq, Proc.view] at hai; exact (panicked hai).elim
  above {m H} h {i op s} hp {tr op'} hF' := by
    obtain ⟨m₀, h₀, hg, ha⟩ := crash_sim h
    obtain ⟨tr₀, h'⟩ := hF _ _ _ _ hF'
    exact hL.above h₀ (crash_at ha hp) h'

end Verif.Conc

import Verif.Conc.Refine
import Verif.Conc.Ends
/-!
# Calls that are ended by a panic of a user function

`P.crash B` is the program `P` in which a call at a point with `B op s` (a point at which a function of the user runs) may end with a panic: the
result is `none`, and the shared state stays as it is. There is no deferred function in the calls modelled, so in particular a lock that is
held stays locked.
-/
namespace Verif.Conc

variable {G Op Res S : Type}

/-- What a step of the program is when calls can also end without a result. -/
def lift : Option (G × (S ⊕ Res)) → Option (G × (S ⊕ Option Res))
  | none => none
  | some (g, .inl s) => some (g, .inl s)
  | some (g, .inr r) => some (g, .inr (some r))

/-- The program in which user functions may panic: choice 0 is the panic. -/
def Prog.crash (P : Prog G Op Res S) (B : Op → S → Bool) : Prog G Op (Option Res) S where
  init := P.init
  begin := P.begin
  step g i op s c := if B op s then match c with
      | 0 => some (g, .inr none)
      | c + 1 => lift (P.step g i op s c)
    else lift (P.step g i op s c)

/-- What the program with panics can do: what the program can do, and panic where a user function is executing. -/
theorem crash_steps (P : Prog G Op Res S) (B : Op → S → Bool) (g : G) (i : Nat) (op : Op) (s : S) (r : G × (S ⊕ Option Res)) :
    (∃ c, (P.crash B).step g i op s c = some r) ↔ (B op s = true ∧ r = (g, .inr none)) ∨ ∃ c, lift (P.step g i op s c) = some r := by
  cases hb : B op s with
  | false => simp [Prog.crash, hb]
  | true =>
    simp only [Prog.crash, hb, if_true, true_and]
    constructor
    · rintro ⟨c, hc⟩
      cases c with
      | zero => simp only [Option.some.injEq] at hc; exact .inl hc.symm
      | succ c => exact .inr ⟨c, hc⟩
    · rintro (rfl | ⟨c, hc⟩)
      · exact ⟨0, rfl⟩
      · exact ⟨c + 1, hc⟩

/-- The history without the panics: a call that panicked is in it as a call that has not returned. -/
def survived (H : List (Ev Op (Option Res))) : List (Ev Op Res) := H.filterMap (Ev.seen id)

theorem mem_survived_inv {H : List (Ev Op (Option Res))} {i : Nat} {op : Op} : Ev.inv i op ∈ survived H ↔ Ev.inv i op ∈ H := by
  simp only [survived, List.mem_filterMap]
  constructor
  · rintro ⟨e, h1, h2⟩
    cases e with
    | inv j o => simp only [Ev.seen, Option.some.injEq, Ev.inv.injEq] at h2; rwa [h2.1, h2.2] at h1
    | ret j r => cases r <;> simp [Ev.seen] at h2
  · intro h; exact ⟨_, h, rfl⟩

theorem mem_survived_ret {H : List (Ev Op (Option Res))} {i : Nat} {r : Res} : Ev.ret i r ∈ survived H ↔ Ev.ret i (some r) ∈ H := by
  simp only [survived, List.mem_filterMap]
  constructor
  · rintro ⟨e, h1, h2⟩
    cases e with
    | inv j o => simp [Ev.seen] at h2
    | ret j x => cases x <;> simp [Ev.seen] at h2; rwa [h2.1, h2.2] at h1
  · intro h; exact ⟨_, h, rfl⟩

/-- A call of the program with panics and the same call of the program without: a call that panicked is one that does not go on. -/
def Alike (B : Op → S → Bool) : Option (Op × (S ⊕ Option Res)) → Option (Op × (S ⊕ Res)) → Prop
  | none, w => w = none
  | some (op, .inl s), w => w = some (op, .inl s)
  | some (op, .inr (some r)), w => w = some (op, .inr r)
  | some (op, .inr none), w => ∃ s, B op s = true ∧ w = some (op, .inl s)

theorem crash_cases {P : Prog G Op Res S} {B : Op → S → Bool} {g g' : G} {i c : Nat} {op : Op} {s : S} {x : S ⊕ Option Res}
    (h : (P.crash B).step g i op s c = some (g', x)) :
    (B op s = true ∧ g' = g ∧ x = .inr none) ∨
    ∃ c' y, P.step g i op s c' = some (g', y) ∧ ((∃ s', y = .inl s' ∧ x = .inl s') ∨ ∃ r, y = .inr r ∧ x = .inr (some r)) := by
  have key : ∀ c', lift (P.step g i op s c') = some (g', x) →
      ∃ c' y, P.step g i op s c' = some (g', y) ∧ ((∃ s', y = .inl s' ∧ x = .inl s') ∨ ∃ r, y = .inr r ∧ x = .inr (some r)) := by
    intro c' hc
    refine ⟨c', ?_⟩
    cases hp : P.step g i op s c' with
    | none => simp [hp, lift] at hc
    | some z =>
      obtain ⟨gz, xz⟩ := z
      cases xz with
      | inl s' => simp only [hp, lift, Option.some.injEq, Prod.mk.injEq] at hc; exact ⟨.inl s', by rw [hc.1], .inl ⟨s', rfl, hc.2.symm⟩⟩
      | inr r => simp only [hp, lift, Option.some.injEq, Prod.mk.injEq] at hc; exact ⟨.inr r, by rw [hc.1], .inr ⟨r, rfl, hc.2.symm⟩⟩
  simp only [Prog.crash] at h
  split at h
  · rename_i hB
    split at h
    · simp only [Option.some.injEq, Prod.mk.injEq] at h; exact .inl ⟨hB, h.1.symm, h.2.symm⟩
    · exact .inr (key _ h)
  · exact .inr (key _ h)

theorem crash_enabled {P : Prog G Op Res S} (B : Op → S → Bool) {g g' : G} {i c : Nat} {op : Op} {s : S} {x : S ⊕ Res} (h : P.step g i op s c = some (g', x)) :
    ∃ c' y, (P.crash B).step g i op s c' = some y := by
  cases hB : B op s with
  | true => exact ⟨0, _, by simp only [Prog.crash, hB]; rfl⟩
  | false =>
    cases x with
    | inl s' => exact ⟨c, (g', .inl s'), by simp [Prog.crash, hB, h, lift]⟩
    | inr r => exact ⟨c, (g', .inr (some r)), by simp [Prog.crash, hB, h, lift]⟩

/-- Every execution with panics is one without in which the calls that panicked do not go on. -/
theorem crash_sim {P : Prog G Op Res S} {B : Op → S → Bool} {m : Conf G Op (Option Res) S} {H : List (Ev Op (Option Res))}
    (h : (P.crash B).mach.Exec m H) :
    ∃ m₀ : Conf G Op Res S, P.mach.Exec m₀ (survived H) ∧ m₀.g = m.g ∧ ∀ i, Alike B (m.view i) (m₀.view i) := by
  obtain ⟨m₀, h1, h2, h3⟩ := (P.crash B).refineRes P id (fun M g v w => g = M ∧ ∀ i, Alike B (v i) (w i)) ⟨rfl, fun _ => rfl⟩
    (by
      rintro M g v w i ⟨_, hw⟩ hv
      have := hw i
      rwa [hv] at this)
    (by
      rintro M g v w i op r r' ⟨_, hw⟩ hv rfl
      have := hw i
      rwa [hv] at this)
    (by
      rintro M m' H v i op _ ⟨hg, hw⟩ hv
      refine ⟨hg, fun j => ?_⟩
      by_cases hj : j = i
      · subst hj; simp [Alike, Prog.crash]
      · rw [upd_ne _ _ hj, upd_ne _ _ hj]; exact hw j)
    (by
      rintro M m' H v i op t c M' x _ ⟨hg, hw⟩ hv hs
      have hi := hw i
      rw [hv] at hi
      have hi : m'.view i = some (op, .inl t) := hi
      rcases crash_cases hs with ⟨hB, rfl, rfl⟩ | ⟨c', y, hy, hxy⟩
      · refine .inl ⟨hg, fun j => ?_⟩
        by_cases hj : j = i
        · subst hj; rw [upd_same]; exact ⟨t, hB, hi⟩
        · rw [upd_ne _ _ hj]; exact hw j
      · refine .inr ⟨t, c', M', y, hi, by rw [hg]; exact hy, rfl, fun j => ?_⟩
        by_cases hj : j = i
        · subst hj
          rw [upd_same, upd_same]
          rcases hxy with ⟨s', rfl, rfl⟩ | ⟨r, rfl, rfl⟩ <;> rfl
        · rw [upd_ne _ _ hj, upd_ne _ _ hj]; exact hw j)
    h
  exact ⟨m₀, h1, h2, h3⟩

theorem Weights.Sinks.crash {W : Weights G Op S} {P : Prog G Op Res S} (hW : W.Sinks P) (B : Op → S → Bool) : W.Sinks (P.crash B) where
  step g i op s c g' s' h := by
    rcases crash_cases h with ⟨_, _, hx⟩ | ⟨c', y, hy, ⟨s'', rfl, hx⟩ | ⟨r, rfl, hx⟩⟩
    · simp at hx
    · simp only [Sum.inl.injEq] at hx
      subst hx
      exact hW.step _ _ _ _ _ _ _ hy
    · simp at hx
  res g i op s c g' r h := by
    rcases crash_cases h with ⟨_, rfl, _⟩ | ⟨c', y, hy, ⟨s'', rfl, hx⟩ | ⟨r', rfl, hx⟩⟩
    · exact .inr (.inr fun _ _ => Nat.le_refl _)
    · simp at hx
    · exact hW.res _ _ _ _ _ _ _ hy

/-- A call that panicked, or that is still running, where nothing can move: as in the program without panics, but without its step. -/
theorem crash_stuck {P : Prog G Op Res S} {B : Op → S → Bool} {m : Conf G Op (Option Res) S} {H : List (Ev Op (Option Res))}
    (h : (P.crash B).mach.Exec m H) (hs : ∀ j c, (P.crash B).mach.next m j c = none) {m₀ : Conf G Op Res S}
    (ha : ∀ i, Alike B (m.view i) (m₀.view i)) {i : Nat} {op : Op} {s : S} (hi : m₀.view i = some (op, .inl s)) :
    (∀ c, P.step m.g i op s c = none) ∨ (Ev.inv i op ∈ H ∧ Ev.ret i none ∈ H ∧ B op s = true) := by
  have hai := ha i
  rw [hi] at hai
  cases hpc : m.pc i with
  | idle => simp [Conf.view, hpc, Proc.view, Alike] at hai
  | ret o r => exact absurd (hs i 0) (by simp [Prog.mach, hpc])
  | «at» o t =>
    simp only [Conf.view, hpc, Proc.view, Alike, Option.some.injEq, Prod.mk.injEq, Sum.inl.injEq] at hai
    obtain ⟨rfl, rfl⟩ := hai
    refine .inl fun c => ?_
    cases hp : P.step m.g i op s c with
    | none => rfl
    | some y =>
      exfalso
      obtain ⟨c', ⟨g', z⟩, hz⟩ := crash_enabled B hp
      have := hs i c'
      simp only [Prog.mach, hpc, hz] at this
      cases z <;> simp at this
  | done o r =>
    have hd := (P.crash B).done_mem h hpc
    cases r with
    | some r => simp [Conf.view, hpc, Proc.view, Alike] at hai
    | none =>
      simp only [Conf.view, hpc, Proc.view, Alike, Option.some.injEq, Prod.mk.injEq, Sum.inl.injEq] at hai
      obtain ⟨t, h1, rfl, rfl⟩ := hai
      exact .inr ⟨(((P.crash B).hist h).1 i op).mpr ⟨.inr none, by simp [Conf.view, hpc, Proc.view]⟩, hd, h1⟩

/-- A call that is not in the history has not been made. -/
theorem Prog.not_made (P : Prog G Op Res S) {m : Conf G Op Res S} {H : List (Ev Op Res)} (h : P.mach.Exec m H) {i : Nat} (hi : ∀ op, Ev.inv i op ∉ H) :
    m.pc i = .idle := by
  have hn : ∀ op x, m.view i ≠ some (op, x) := fun op x hc => hi op (((P.hist h).1 i op).mpr ⟨x, hc⟩)
  cases hp : m.pc i with
  | idle => rfl
  | «at» op s => exact absurd (by simp [Conf.view, hp, Proc.view]) (hn op (.inl s))
  | ret op r => exact absurd (by simp [Conf.view, hp, Proc.view]) (hn op (.inr r))
  | done op r => exact absurd (by simp [Conf.view, hp, Proc.view]) (hn op (.inr r))

/-- `P.Onward m H m' H'`: an execution leads from `m`, with history `H`, to `m'`, with history `H'`. -/
inductive Mach.Onward {M : Type} (P : Mach M Op Res) : M → List (Ev Op Res) → M → List (Ev Op Res) → Prop where
  | refl {m : M} {H : List (Ev Op Res)} : Mach.Onward P m H m H
  | step {m m' m'' : M} {H H' : List (Ev Op Res)} {l : Option (Ev Op Res)} : P.Step m l m' → Mach.Onward P m' (H ++ l.toList) m'' H' → Mach.Onward P m H m'' H'

theorem Mach.exec_snoc {M : Type} {P : Mach M Op Res} {m m' : M} {H : List (Ev Op Res)} {l : Option (Ev Op Res)} (h : P.Exec m H) (hs : P.Step m l m') :
    P.Exec m' (H ++ l.toList) := by
  cases l with
  | none => rw [Option.toList_none, List.append_nil]; exact .tau h hs
  | some e => exact .ev h hs

/-- What every step keeps holds ever after. -/
theorem Mach.Onward.keeps {M : Type} {P : Mach M Op Res} {Q : M → Prop}
    (hQ : ∀ m H l m', P.Exec m H → Q m → P.Step m l m' → Q m') {m m' : M} {H H' : List (Ev Op Res)} (h : P.Onward m H m' H') (he : P.Exec m H) (hm : Q m) :
    P.Exec m' H' ∧ Q m' := by
  induction h with
  | refl => exact ⟨he, hm⟩
  | step hs _ ih => exact ih (Mach.exec_snoc he hs) (hQ _ _ _ _ he hm hs)

/-- The same for what is said about the calls and the history. -/
theorem Prog.onward (P : Prog G Op Res S) (I : G → View Op Res S → List (Ev Op Res) → Prop)
    (hinv : ∀ g v H i op, I g v H → v i = none → I g (upd v i (some (op, .inl (P.begin op)))) (H ++ [.inv i op]))
    (hstep : ∀ g v H i op s c g' x, I g v H → v i = some (op, .inl s) → P.step g i op s c = some (g', x) →
      I g' (upd v i (some (op, x))) H)
    (hret : ∀ g v H i op r, I g v H → v i = some (op, .inr r) → I g v (H ++ [.ret i r]))
    {m m' : Conf G Op Res S} {H H' : List (Ev Op Res)} (h : P.mach.Onward m H m' H') (h0 : I m.g m.view H) : I m'.g m'.view H' := by
  induction h with
  | refl => exact h0
  | step hs _ ih => exact ih (P.keep I hinv hstep hret h0 hs)

theorem Mach.play_onward {M : Type} (P : Mach M Op Res) : ∀ (as : List (Act Op)) (m : M) (H : List (Ev Op Res)) (x : M × List (Ev Op Res)),
    P.play (m, H) as = some x → P.Onward m H x.1 x.2 := by
  intro as
  induction as with
  | nil => intro m H x e; simp only [Mach.play, Option.some.injEq] at e; subst e; exact .refl
  | cons a as ih =>
    intro m H x e
    cases a with
    | inv i op =>
      simp only [Mach.play] at e
      split at e
      · simp at e
      · rename_i m' hm
        exact .step (.inv _ _ _ _ hm) (ih _ _ _ e)
    | run i c =>
      simp only [Mach.play] at e
      split at e
      · simp at e
      · rename_i m' hm
        exact .step (.run _ _ _ _ _ hm) (by simpa using ih _ _ _ e)
      · rename_i ev m' hm
        exact .step (.run _ _ _ _ _ hm) (ih _ _ _ e)

/-- An execution along a schedule, followed by another one (for examples). -/
theorem Mach.exists_onward {M : Type} (P : Mach M Op Res) (as bs : List (Act Op)) (H H' : List (Ev Op Res))
    (h : (P.play (P.start, []) as).elim False fun x => x.2 = H ∧ (P.play x bs).elim False fun y => y.2 = H') :
    ∃ m m', P.Exec m H ∧ P.Onward m H m' H' := by
  cases hx : P.play (P.start, []) as with
  | none => rw [hx] at h; exact h.elim
  | some x =>
    rw [hx] at h
    obtain ⟨rfl, hy⟩ := h
    cases hb : P.play x bs with
    | none => rw [hb] at hy; exact hy.elim
    | some y =>
      rw [hb] at hy
      simp only [Option.elim_some] at hy
      subst hy
      exact ⟨x.1, y.1, P.exec_of_play as x hx, P.play_onward bs _ _ _ hb⟩

end Verif.Conc

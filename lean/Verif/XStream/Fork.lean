import Verif.XStream.Walk
/-! # Concat and Copy are correct components -/
namespace Verif.XStream
open Verif.Go Verif.Conc.Net

variable {α K A : Type}

/-! ## Concat -/

/-- The elements of list `i` in a list of tagged elements. -/
def ofTag (t : List (Nat × A)) (i : Nat) : List A := (t.filter fun p => p.1 = i).map Prod.snd

theorem ofTag_cons (i : Nat) (x : A) (t : List (Nat × A)) (j : Nat) : ofTag ((i, x) :: t) j = if i = j then x :: ofTag t j else ofTag t j := by
  unfold ofTag
  by_cases h : i = j <;> simp [h]

theorem ofTag_snoc (t : List (Nat × A)) (i : Nat) (x : A) (j : Nat) : ofTag (t ++ [(i, x)]) j = if i = j then ofTag t j ++ [x] else ofTag t j := by
  unfold ofTag
  by_cases h : i = j <;> simp [h]

/-- Tagged elements are an interleaving of the lists of their tags. -/
theorem interleaving_ofTag (n : Nat) (t : List (Nat × A)) (ht : ∀ p ∈ t, p.1 < n) :
    Interleaving ((List.range n).map (ofTag t)) (t.map Prod.snd) := by
  induction t with
  | nil => exact .nil _ (by simp [ofTag])
  | cons p t ih =>
    obtain ⟨i, x⟩ := p
    have hi : i < n := ht (i, x) (by simp)
    have ih := ih fun p hp => ht p (by simp [hp])
    obtain ⟨l₁, l₂, e⟩ := List.append_of_mem (List.mem_range.mpr hi)
    have hnd : (List.range n).Nodup := List.nodup_range
    rw [e] at hnd ih ⊢
    have h1 : ∀ j ∈ l₁, j ≠ i := by
      intro j hj hji; subst hji
      rw [List.nodup_append] at hnd
      exact hnd.2.2 j hj j (by simp) rfl
    have h2 : ∀ j ∈ l₂, j ≠ i := by
      intro j hj hji; subst hji
      rw [List.nodup_append] at hnd
      simp [hj] at hnd
    have e1 : l₁.map (ofTag ((i, x) :: t)) = l₁.map (ofTag t) := by
      apply List.map_congr_left; intro j hj; rw [ofTag_cons, if_neg (Ne.symm (h1 j hj))]
    have e2 : l₂.map (ofTag ((i, x) :: t)) = l₂.map (ofTag t) := by
      apply List.map_congr_left; intro j hj; rw [ofTag_cons, if_neg (Ne.symm (h2 j hj))]
    rw [List.map_append, List.map_cons, e1, e2, ofTag_cons, if_pos rfl]
    exact .cons _ x _ _ _ (by simpa using ih)

/-- The element a forwarder holds. -/
def Forwarder.rest : Forwarder α → List (Val α)
  | .send v => [v]
  | _ => []

/-- Proof only: part of a measure; models no code. -/
def Forwarder.waits : Forwarder α → Nat
  | .loop | .send _ | .fin => 1
  | _ => 0

/-- The goroutine has seen the end of its stream (xstream.go:365-395). -/
def Forwarder.ended : Forwarder α → Bool
  | .fin | .exited => true
  | _ => false

/-- Proof only: part of a measure; models no code. -/
def Forwarder.weight : Forwarder α → Nat
  | .idle => 0
  | .loop => 2
  | .send _ => 3
  | .fin => 1
  | .exited => 0

/-- Proof only: part of an invariant or simulation; models no code. -/
structure ConcatInv (n : Nat) (s : ConcatSt α) (h : Hist (Val α) (Ev α K)) : Prop where
  idle : ∀ i < n, s.fw i = .idle ↔ ∃ k, s.main = .spawn k ∧ k ≤ i
  wg : s.wg = sumTo (fun i => (s.fw i).waits) n
  eof : ∀ i < n, h.eof i = (s.fw i).ended
  closed : h.closed 0 = true ↔ s.main = .done
  wait : s.main = .closing ∨ s.main = .done → s.wg = 0
  out : ∃ t : List (Nat × Val α), (∀ p ∈ t, p.1 < n) ∧ h.outs 0 = t.map Prod.snd ∧ ∀ i < n, h.ins i = ofTag t i ++ (s.fw i).rest
  log : h.log = []

theorem sumTo_pos {f : Nat → Nat} {n i : Nat} (hi : i < n) (h : 0 < f i) : 0 < sumTo f n := by
  induction n with
  | zero => omega
  | succ n ih =>
    simp only [sumTo]
    by_cases e : i = n
    · subst e; omega
    · have := ih (by omega); omega

theorem sumTo_zero {f : Nat → Nat} {n : Nat} (h : sumTo f n = 0) : ∀ i < n, f i = 0 := by
  intro i hi
  rcases Nat.eq_zero_or_pos (f i) with h0 | h0
  · exact h0
  · have := sumTo_pos hi h0; omega

theorem sumTo_const_zero (n : Nat) : sumTo (fun _ => 0) n = 0 := by
  induction n with
  | zero => rfl
  | succ n ih => simpa [sumTo] using ih

theorem sumTo_upd {f : Nat → Nat} {n i a : Nat} (hi : i < n) : sumTo (upd f i a) n + f i = sumTo f n + a := by
  have := sumTo_one (f := upd f i a) (g := f) hi (fun p _ hp => upd_of_ne _ _ hp)
  rw [upd_self] at this
  omega

theorem upd_comp {B C : Type} (g : B → C) (f : Nat → B) (i : Nat) (a : B) : (fun j => g (upd f i a j)) = upd (fun j => g (f j)) i (g a) := by
  funext j
  by_cases e : j = i
  · subst e; rw [upd_self, upd_self]
  · rw [upd_of_ne _ _ e, upd_of_ne _ _ e]

theorem concat_inv_init (n : Nat) : ConcatInv n ⟨.spawn 0, fun _ => .idle, 0⟩ (Hist.empty : Hist (Val α) (Ev α K)) := by
  constructor <;> try simp [Hist.empty, Forwarder.ended]
  · exact (sumTo_const_zero n).symm
  · intro i _; exact ⟨rfl, rfl⟩

theorem concat_inv_step {n : Nat} {s s' : ConcatSt α} {h : Hist (Val α) (Ev α K)} {l : Lbl (Val α) (Ev α K)} (hi : ConcatInv n s h)
    (hs : ConcatStep n s l s') : ConcatInv n s' (h.add l) := by
  obtain ⟨main, fw, wg⟩ := s
  obtain ⟨a1, a2, a3, a4, a5, ⟨t, a6, a7, a8⟩, a9⟩ := hi
  dsimp only at *
  cases hs with
  | spawn i e hin =>
    dsimp only at e; subst e
    have hidle : fw i = .idle := (a1 i hin).mpr ⟨i, rfl, Nat.le_refl _⟩
    refine ⟨?_, ?_, ?_, ?_, ?_, ⟨t, a6, a7, ?_⟩, a9⟩ <;> dsimp only
    · intro j hj
      by_cases ej : j = i
      · subst ej; rw [upd_self]; simp
      · rw [upd_of_ne _ _ ej, a1 j hj]
        simp; omega
    · have := sumTo_upd (f := fun j => (fw j).waits) (a := 1) hin
      rw [upd_comp Forwarder.waits]
      rw [show Forwarder.waits (Forwarder.loop : Forwarder α) = 1 from rfl]
      simp only [hidle, show Forwarder.waits (Forwarder.idle : Forwarder α) = 0 from rfl] at this
      omega
    · intro j hj
      by_cases ej : j = i
      · subst ej; rw [upd_self]
        have := a3 j hj; rw [hidle] at this; exact this
      · rw [upd_of_ne _ _ ej]; exact a3 j hj
    · simpa [Hist.add] using a4
    · simp
    · intro j hj
      by_cases ej : j = i
      · subst ej; rw [upd_self]
        have := a8 j hj; rw [hidle] at this; exact this
      · rw [upd_of_ne _ _ ej]; exact a8 j hj
  | spawned i e hin =>
    dsimp only at e; subst e
    refine ⟨?_, a2, a3, ?_, ?_, ⟨t, a6, a7, a8⟩, a9⟩ <;> dsimp only
    · intro j hj
      rw [a1 j hj]
      simp; omega
    · simpa [Hist.add] using a4
    · simp
  | wait e hw =>
    dsimp only at e; subst e
    refine ⟨?_, a2, a3, ?_, fun _ => hw, ⟨t, a6, a7, a8⟩, a9⟩ <;> dsimp only
    · intro j hj
      rw [a1 j hj]
      simp
    · simpa [Hist.add] using a4
  | close e =>
    dsimp only at e; subst e
    refine ⟨?_, a2, a3, ?_, fun _ => a5 (.inl rfl), ⟨t, a6, a7, a8⟩, a9⟩ <;> dsimp only
    · intro j hj
      rw [a1 j hj]
      simp
    · simp [Hist.add]
  | recv i v hin e =>
    dsimp only at e
    have key : ∀ j, Forwarder.waits (upd fw i (.send v) j) = Forwarder.waits (fw j) := by
      intro j
      by_cases ej : j = i
      · subst ej; rw [upd_self, e]; rfl
      · rw [upd_of_ne _ _ ej]
    refine ⟨?_, ?_, ?_, a4, a5, ⟨t, a6, a7, ?_⟩, a9⟩ <;> dsimp only
    · intro j hj
      by_cases ej : j = i
      · subst ej
        have := a1 j hj; rw [e] at this
        rw [upd_self, ← this]; simp
      · rw [upd_of_ne _ _ ej]; exact a1 j hj
    · simpa only [key] using a2
    · intro j hj
      by_cases ej : j = i
      · subst ej
        have := a3 j hj; rw [e] at this
        rw [upd_self]; exact this
      · rw [upd_of_ne _ _ ej]; exact a3 j hj
    · intro j hj
      by_cases ej : j = i
      · subst ej
        have := a8 j hj; rw [e] at this
        simp [Hist.add, this, Forwarder.rest]
      · rw [upd_of_ne _ _ ej]
        simpa [Hist.add, upd_of_ne _ _ ej] using a8 j hj
  | eof i hin e =>
    dsimp only at e
    have key : ∀ j, Forwarder.waits (upd fw i .fin j) = Forwarder.waits (fw j) := by
      intro j
      by_cases ej : j = i
      · subst ej; rw [upd_self, e]; rfl
      · rw [upd_of_ne _ _ ej]
    refine ⟨?_, ?_, ?_, a4, a5, ⟨t, a6, a7, ?_⟩, a9⟩ <;> dsimp only
    · intro j hj
      by_cases ej : j = i
      · subst ej
        have := a1 j hj; rw [e] at this
        rw [upd_self, ← this]; simp
      · rw [upd_of_ne _ _ ej]; exact a1 j hj
    · simpa only [key] using a2
    · intro j hj
      by_cases ej : j = i
      · subst ej
        simp [Hist.add, Forwarder.ended]
      · rw [upd_of_ne _ _ ej]; simpa [Hist.add, upd_of_ne _ _ ej] using a3 j hj
    · intro j hj
      by_cases ej : j = i
      · subst ej
        have := a8 j hj; rw [e] at this
        rw [upd_self]; exact this
      · rw [upd_of_ne _ _ ej]; exact a8 j hj
  | send i v hin e =>
    dsimp only at e
    have key : ∀ j, Forwarder.waits (upd fw i .loop j) = Forwarder.waits (fw j) := by
      intro j
      by_cases ej : j = i
      · subst ej; rw [upd_self, e]; rfl
      · rw [upd_of_ne _ _ ej]
    refine ⟨?_, ?_, ?_, a4, a5, ⟨t ++ [(i, v)], ?_, ?_, ?_⟩, a9⟩ <;> try dsimp only
    · intro j hj
      by_cases ej : j = i
      · subst ej
        have := a1 j hj; rw [e] at this
        rw [upd_self, ← this]; simp
      · rw [upd_of_ne _ _ ej]; exact a1 j hj
    · simpa only [key] using a2
    · intro j hj
      by_cases ej : j = i
      · subst ej
        have := a3 j hj; rw [e] at this
        rw [upd_self]; exact this
      · rw [upd_of_ne _ _ ej]; exact a3 j hj
    · intro p hp
      simp at hp
      rcases hp with hp | rfl
      · exact a6 p hp
      · exact hin
    · simp [Hist.add, a7]
    · intro j hj
      rw [ofTag_snoc]
      by_cases ej : j = i
      · subst ej
        have := a8 j hj; rw [e] at this
        rw [upd_self, if_pos rfl]; simpa [Hist.add, Forwarder.rest] using this
      · rw [upd_of_ne _ _ ej, if_neg (Ne.symm ej)]; exact a8 j hj
  | wgDone i hin e =>
    dsimp only at e
    have h1 := sumTo_upd (f := fun j => (fw j).waits) (a := 0) hin
    simp only [e, show Forwarder.waits (Forwarder.fin : Forwarder α) = 1 from rfl] at h1
    refine ⟨?_, ?_, ?_, a4, ?_, ⟨t, a6, a7, ?_⟩, a9⟩ <;> dsimp only
    · intro j hj
      by_cases ej : j = i
      · subst ej
        have := a1 j hj; rw [e] at this
        rw [upd_self, ← this]; simp
      · rw [upd_of_ne _ _ ej]; exact a1 j hj
    · rw [upd_comp Forwarder.waits]
      rw [show Forwarder.waits (Forwarder.exited : Forwarder α) = 0 from rfl]
      omega
    · intro j hj
      by_cases ej : j = i
      · subst ej
        have := a3 j hj; rw [e] at this
        rw [upd_self]; exact this
      · rw [upd_of_ne _ _ ej]; exact a3 j hj
    · intro hm; have := a5 hm; omega
    · intro j hj
      by_cases ej : j = i
      · subst ej
        have := a8 j hj; rw [e] at this
        rw [upd_self]; exact this
      · rw [upd_of_ne _ _ ej]; exact a8 j hj

theorem concat_inv {n : Nat} {s : (concatC n : Comp (Val α) (Ev α K)).σ} {h : Hist (Val α) (Ev α K)} (hr : CReach (concatC n) s h) : ConcatInv n s h := by
  induction hr with
  | init => exact concat_inv_init n
  | step _ hs ih => exact concat_inv_step ih hs

/-- Proof only: part of a measure; models no code. -/
def ConcatMain.weight (n : Nat) : ConcatMain → Nat
  | .spawn i => 3 * (n - i) + 3
  | .wait => 2
  | .closing => 1
  | .done => 0

/-- Proof only: part of a measure; models no code. -/
def concatW (n : Nat) (s : ConcatSt α) : Nat := s.main.weight n + sumTo (fun i => (s.fw i).weight) n

/-- A forwarder that has been started can move by itself unless it waits for input or has exited. -/
theorem forwarder_active {n : Nat} {s : ConcatSt α} {i : Nat} (hi : i < n) (h1 : s.fw i ≠ .loop) (h2 : s.fw i ≠ .exited) (h3 : s.fw i ≠ .idle) :
    Active (concatC n : Comp (Val α) (Ev α K)) s := by
  cases e : s.fw i with
  | idle => exact absurd e h3
  | loop => exact absurd e h1
  | send v => exact ⟨_, _, .send s i v hi e, rfl⟩
  | fin => exact ⟨_, _, .wgDone s i hi e, rfl⟩
  | exited => exact absurd e h2

theorem concat_good (n : Nat) : Good lim (concatC n : Comp (Val α) (Ev α K))
    (fun ins outs log => Interleaving ((List.range n).map ins) (outs 0) ∧ log = []) := by
  refine ⟨?_, ?_, ?_, ?_, concatW n, fun _ _ => 1, ?_⟩
  · intro s h l s' hr _ hs
    have hi := concat_inv hr
    cases hs with
    | recv i v hin e => exact ⟨hin, by rw [hi.eof i hin, e]; rfl⟩
    | eof i hin e => exact ⟨hin, by rw [hi.eof i hin, e]; rfl⟩
    | close e =>
      refine ⟨by simp [concatC], ?_⟩
      rw [← Bool.not_eq_true, hi.closed, e]; simp
    | send i v hin e =>
      refine ⟨by simp [concatC], ?_⟩
      rw [← Bool.not_eq_true, hi.closed]
      intro hd
      have h0 := hi.wait (.inr hd)
      rw [hi.wg] at h0
      have := sumTo_zero h0 i hin
      rw [e] at this
      simp [Forwarder.waits] at this
    | _ => trivial
  · rintro s h hr _ ⟨hm, hw⟩
    have hi := concat_inv hr
    refine ⟨fun p hp => by rw [hi.eof p hp, hw p hp]; rfl, ?_, ?_, hi.log⟩
    · intro q hq
      have : q = 0 := by simpa [concatC] using hq
      subst this
      exact hi.closed.mpr hm
    · obtain ⟨t, t1, t2, t3⟩ := hi.out
      rw [t2]
      have : (List.range n).map h.ins = (List.range n).map (ofTag t) := by
        apply List.map_congr_left
        intro i hin
        have hin := List.mem_range.mp hin
        rw [t3 i hin, hw i hin]
        simp [Forwarder.rest]
      rw [this]
      exact interleaving_ofTag n t t1
  · intro s h hr _ hnd
    have hi := concat_inv hr
    cases hm : s.main with
    | spawn i =>
      by_cases hin : i < n
      · exact .inl ⟨_, _, .spawn s i hm hin, rfl⟩
      · exact .inl ⟨_, _, .spawned s i hm hin, rfl⟩
    | closing => exact .inl ⟨_, _, .close s hm, rfl⟩
    | _ =>
      have hidle : ∀ j < n, s.fw j ≠ .idle := by
        intro j hj e
        obtain ⟨k, hk, _⟩ := (hi.idle j hj).mp e
        rw [hm] at hk; simp at hk
      by_cases hall : ∀ j < n, s.fw j = .exited
      · first
        | exact absurd (⟨hm, hall⟩ : s.main = .done ∧ ∀ i < n, s.fw i = .exited) hnd
        | refine .inl ⟨_, _, .wait s hm ?_, rfl⟩
          rw [hi.wg, sumTo_congr (g := fun _ => 0) (fun p hp => by rw [hall p hp]; rfl), sumTo_const_zero]
      · push Not at hall
        obtain ⟨j, hj, hne⟩ := hall
        by_cases hl : s.fw j = .loop
        · exact .inr ⟨j, hj, by rw [hi.eof j hj, hl]; rfl, fun v => ⟨_, .recv s j v hj hl⟩, ⟨_, .eof s j hj hl⟩⟩
        · exact .inl (forwarder_active hj hl hne (hidle j hj))
  · intro s h hr _ p hp heof
    have hi := concat_inv hr
    rw [hi.eof p hp] at heof
    by_cases hl : s.fw p = .loop
    · exact .inl ⟨fun v => ⟨_, .recv s p v hp hl⟩, ⟨_, .eof s p hp hl⟩⟩
    · by_cases hidle : s.fw p = .idle
      · obtain ⟨k, hk, hkp⟩ := (hi.idle p hp).mp hidle
        exact .inr ⟨_, _, .spawn s k hk (by have : p < n := hp; omega), rfl⟩
      · refine .inr (forwarder_active hp hl ?_ hidle)
        intro e; rw [e] at heof; simp [Forwarder.ended] at heof
  · intro s h l s' hr _ hs
    have hi := concat_inv hr
    obtain ⟨main, fw, wg⟩ := s
    have key : ∀ (i : Nat) (a : Forwarder α), i < n → sumTo (fun j => (upd fw i a j).weight) n + (fw i).weight =
        sumTo (fun j => (fw j).weight) n + a.weight := by
      intro i a hin
      rw [upd_comp Forwarder.weight]
      exact sumTo_upd hin
    cases hs with
    | spawn i e hin =>
      dsimp only at e; subst e
      have := key i .loop hin
      simp only [concatW, ConcatMain.weight]
      simp only [show Forwarder.weight (Forwarder.loop : Forwarder α) = 2 from rfl] at this
      omega
    | spawned i e hin =>
      dsimp only at e; subst e
      simp only [concatW, ConcatMain.weight]; omega
    | wait e _ => dsimp only at e; subst e; simp [concatW, ConcatMain.weight]
    | close e => dsimp only at e; subst e; simp [concatW, ConcatMain.weight]
    | recv i v hin e =>
      dsimp only at e
      have := key i (.send v) hin
      rw [e] at this
      simp only [show Forwarder.weight (Forwarder.loop : Forwarder α) = 2 from rfl, show Forwarder.weight (Forwarder.send v : Forwarder α) = 3 from rfl] at this
      simp only [concatW]; omega
    | eof i hin e =>
      dsimp only at e
      have := key i .fin hin
      rw [e] at this
      simp only [show Forwarder.weight (Forwarder.loop : Forwarder α) = 2 from rfl, show Forwarder.weight (Forwarder.fin : Forwarder α) = 1 from rfl] at this
      simp only [concatW]; omega
    | send i v hin e =>
      dsimp only at e
      have := key i .loop hin
      rw [e] at this
      simp only [show Forwarder.weight (Forwarder.loop : Forwarder α) = 2 from rfl, show Forwarder.weight (Forwarder.send v : Forwarder α) = 3 from rfl] at this
      simp only [concatW]; omega
    | wgDone i hin e =>
      dsimp only at e
      have := key i .exited hin
      rw [e] at this
      simp only [show Forwarder.weight (Forwarder.exited : Forwarder α) = 0 from rfl, show Forwarder.weight (Forwarder.fin : Forwarder α) = 1 from rfl] at this
      simp only [concatW]; omega

/-! ## Copy -/

/-- Proof only: part of an invariant or simulation; models no code. -/
def copyInv (n : Nat) : CopySt α → Hist (Val α) (Ev α K) → Prop
  | .loop, h => h.eof 0 = false ∧ (∀ q < n, h.closed q = false) ∧ (∀ q < n, h.outs q = h.ins 0) ∧ h.log = []
  | .send v i, h => h.eof 0 = false ∧ (∀ q < n, h.closed q = false) ∧ h.log = [] ∧
      ∃ pre, h.ins 0 = pre ++ [v] ∧ ∀ q < n, h.outs q = if q < i then h.ins 0 else pre
  | .closing i, h => h.eof 0 = true ∧ (∀ q < n, h.closed q = decide (q < i)) ∧ (∀ q < n, h.outs q = h.ins 0) ∧ h.log = []
  | .done, h => h.eof 0 = true ∧ (∀ q < n, h.closed q = true) ∧ (∀ q < n, h.outs q = h.ins 0) ∧ h.log = []

/-- Proof only: part of a measure; models no code. -/
def copyW (n : Nat) : CopySt α → Nat
  | .loop => n + 3
  | .send _ i => n + 4 + (n - i)
  | .closing i => (n - i) + 1
  | .done => 0

theorem copy_ok (caps : List Nat) (s : CopySt α) (h : Hist (Val α) (Ev α K)) (hi : copyInv caps.length s h) :
    (copyS caps).Ok (fun ins outs log => (∀ q < caps.length, outs q = ins 0) ∧ log = []) lim (copyInv caps.length) (copyW caps.length)
      (fun _ => caps.length + 1) s h ((copyS caps).next s) := by
  cases s with
  | loop =>
    obtain ⟨a1, a2, a3, a4⟩ := hi
    refine ⟨by simp [copyS], a1, ?_, ?_⟩
    · intro v
      refine ⟨fun _ => ⟨a1, a2, a4, h.ins 0, by simp [Hist.add], ?_⟩, by simp [copyW]; omega⟩
      intro q hq
      simpa [Hist.add] using a3 q hq
    · exact ⟨⟨by simp [Hist.add], fun q hq => by simpa [Hist.add] using a2 q hq, a3, a4⟩, by simp [copyW]⟩
  | send v i =>
    obtain ⟨a1, a2, a3, pre, a4, a5⟩ := hi
    by_cases hlt : i < caps.length
    · have hnext : copyNext (K := K) caps.length (.send v i) = .send i v (.send v (i + 1)) := by rw [copyNext, if_pos hlt]
      change Seq.Ok (copyS caps) _ _ _ _ _ _ _ (copyNext caps.length (.send v i))
      rw [hnext]
      refine ⟨hlt, a2 i hlt, ⟨a1, a2, a3, pre, a4, ?_⟩, by simp [copyW]; omega⟩
      intro q hq
      have := a5 q hq
      simp only [Hist.add]
      by_cases e : q = i
      · subst e
        rw [upd_self, this, if_neg (by omega), if_pos (by omega), a4]
      · rw [upd_of_ne _ _ e, this]
        by_cases h' : q < i
        · rw [if_pos h', if_pos (by omega)]
        · rw [if_neg h', if_neg (by omega)]
    · have hnext : copyNext (K := K) caps.length (.send v i) = .tau .loop := by rw [copyNext, if_neg hlt]
      change Seq.Ok (copyS caps) _ _ _ _ _ _ _ (copyNext caps.length (.send v i))
      rw [hnext]
      refine ⟨⟨a1, a2, ?_, a3⟩, by simp [copyW]; omega⟩
      intro q hq
      have := a5 q hq
      rwa [if_pos (by omega)] at this
  | closing i =>
    obtain ⟨a1, a2, a3, a4⟩ := hi
    by_cases hlt : i < caps.length
    · have hnext : copyNext (α := α) (K := K) caps.length (.closing i) = .close i (.closing (i + 1)) := by rw [copyNext, if_pos hlt]
      change Seq.Ok (copyS caps) _ _ _ _ _ _ _ (copyNext caps.length (.closing i))
      rw [hnext]
      refine ⟨hlt, by simpa using a2 i hlt, ⟨a1, ?_, a3, a4⟩, by simp [copyW]; omega⟩
      intro q hq
      have := a2 q hq
      simp only [Hist.add]
      by_cases e : q = i
      · subst e; simp
      · rw [upd_of_ne _ _ e, this]
        congr 1
        apply propext; omega
    · have hnext : copyNext (α := α) (K := K) caps.length (.closing i) = .tau .done := by rw [copyNext, if_neg hlt]
      change Seq.Ok (copyS caps) _ _ _ _ _ _ _ (copyNext caps.length (.closing i))
      rw [hnext]
      refine ⟨⟨a1, ?_, a3, a4⟩, by simp [copyW]⟩
      intro q hq
      rw [a2 q hq]; simp; omega
  | done =>
    obtain ⟨a1, a2, a3, a4⟩ := hi
    refine ⟨fun p hp => ?_, a2, a3, a4⟩
    have : p = 0 := by simpa [copyS] using hp
    subst this; exact a1

theorem copy_fine (caps : List Nat) : Fine lim (copyS caps : Seq (Val α) (Ev α K)).comp
    (fun ins outs log => (∀ q < caps.length, outs q = ins 0) ∧ log = []) id := by
  refine Seq.fine (Inv := copyInv caps.length) (W := copyW caps.length) (c := fun _ => caps.length + 1) (fun _ _ h => h) (by simp [copyS])
    (by simp [copyInv, Hist.empty, copyS]) ?_ ?_
  · exact copy_ok caps
  · intro s h hi q hq
    have hq : q < caps.length := hq
    simp only [copyS, id]
    cases s with
    | loop => rw [hi.2.2.1 q hq]; simp
    | closing i => rw [hi.2.2.1 q hq]; simp
    | done => rw [hi.2.2.1 q hq]; simp
    | send v i =>
      obtain ⟨a1, a2, a3, pre, a4, a5⟩ := hi
      rw [a5 q hq, a4]
      by_cases h' : q < i <;> simp [h']

end Verif.XStream

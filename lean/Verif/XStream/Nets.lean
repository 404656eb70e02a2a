import Verif.XStream.Network
import Mathlib.Data.List.Induction
/-! # More about networks: growing outputs, networks with Concat and Copy -/
namespace Verif.XStream
open Verif.Go Verif.Conc.Net

variable {α K : Type}

section
variable {A L : Type} {N : Net A L}

/-- What has been sent and logged is never taken back. -/
theorem hist_step {m m' : NState N} (hs : NStep m m') (i q : Nat) :
    (m.hist i).outs q <+: (m'.hist i).outs q ∧ (m.hist i).log <+: (m'.hist i).log := by
  have move : ∀ (m₀ : NState N) (j : Nat) (l : Lbl A L) (s' : (N.comp j).σ),
      (m₀.hist i).outs q <+: ((m₀.move j l s').hist i).outs q ∧ (m₀.hist i).log <+: ((m₀.move j l s').hist i).log := by
    intro m₀ j l s'
    by_cases e : i = j
    · subst e
      simp only [NState.move, upd_self]
      cases l with
      | send q' v =>
        refine ⟨?_, List.prefix_refl _⟩
        by_cases e : q = q'
        · subst e; simp [Hist.add]
        · simp [Hist.add, upd_of_ne _ _ e]
      | log e => exact ⟨List.prefix_refl _, by simp [Hist.add]⟩
      | _ => exact ⟨List.prefix_refl _, List.prefix_refl _⟩
    · simp only [NState.move, upd_of_ne _ _ e]; exact ⟨List.prefix_refl _, List.prefix_refl _⟩
  cases hs with
  | log j e s' _ hj hst => exact move m j _ s'
  | tau j s' _ hj hst => exact move m j _ s'
  | send j q' v s' _ hj hst _ _ => exact move m j (.send q' v) s'
  | meet j q' v s' s'' _ hj hst _ _ _ _ hst' =>
    have h1 := move m j (.send q' v) s'
    have h2 := move (m.move j (.send q' v) s') _ (.recv (N.dst j q').2 v) s''
    exact ⟨h1.1.trans h2.1, h1.2.trans h2.2⟩
  | sendPanic j q' v s' _ hj hst _ => exact ⟨List.prefix_refl _, List.prefix_refl _⟩
  | close j q' s' _ hj hst _ => exact move m j (.close q') s'
  | closePanic j q' s' _ hj hst _ => exact ⟨List.prefix_refl _, List.prefix_refl _⟩
  | recv j p v vs s' _ hj hst _ => exact move m j (.recv p v) s'
  | eof j p s' _ hj hst _ _ => exact move m j (.eof p) s'

theorem hist_steps {m m' : NState N} (hs : Relation.ReflTransGen NStep m m') (i q : Nat) :
    (m.hist i).outs q <+: (m'.hist i).outs q ∧ (m.hist i).log <+: (m'.hist i).log := by
  induction hs with
  | refl => exact ⟨List.prefix_refl _, List.prefix_refl _⟩
  | tail _ h ih => exact ⟨ih.1.trans (hist_step h i q).1, ih.2.trans (hist_step h i q).2⟩

theorem reach_steps {m m' : NState N} (hr : NReach N m) (hs : Relation.ReflTransGen NStep m m') : NReach N m' := by
  induction hs with
  | refl => exact hr
  | tail _ h ih => exact .step ih h
end

/-! ## A program with Concat -/

/-- `srcs[0], …` are the sources, joined by Concat (the last one is the receiver of the call), and consumed by `term`. -/
def concatNet [DecidableEq K] (srcs : List (Source α)) (term : Term α K) : Net (Val α) (Ev α K) where
  n := srcs.length + 2
  comp i := if i < srcs.length then (srcs.getD i (.of [])).comp else if i = srcs.length then concatC srcs.length else term.comp
  src i p := if i = srcs.length then (p, 0) else (srcs.length, 0)
  dst i _ := if i < srcs.length then (srcs.length, i) else (srcs.length + 1, 0)

/-- The operations of the program `Concat` (xstream.go:365-395) of sources, and an operation that ends it. -/
def concatNodes (srcs : List (Source α)) (term : Term α K) (i : Nat) : Node α K :=
  if i < srcs.length then .source (srcs.getD i (.of [])) else if i = srcs.length then .concat srcs.length else .term term

theorem concatNet_program [DecidableEq K] (srcs : List (Source α)) (term : Term α K) : IsProgram (concatNet srcs term) (concatNodes srcs term) := by
  have shape : ∀ i, ((concatNet srcs term).comp i).nin = (if i < srcs.length then 0 else if i = srcs.length then srcs.length else 1) ∧
      ((concatNet srcs term).comp i).nout = (if i < srcs.length then 1 else if i = srcs.length then 1 else 0) := by
    intro i
    simp only [concatNet]
    by_cases h : i < srcs.length
    · simp only [if_pos h]; exact source_shape _
    · by_cases h2 : i = srcs.length
      · simp only [if_neg h, if_pos h2]; exact ⟨rfl, rfl⟩
      · simp only [if_neg h, if_neg h2]; exact term_shape term
  refine ⟨⟨?_, ?_⟩, ?_, ?_⟩
  · intro i hi p hp
    have hi : i < srcs.length + 2 := hi
    rw [(shape i).1] at hp
    by_cases h : i < srcs.length
    · rw [if_pos h] at hp; omega
    · rw [if_neg h] at hp
      by_cases h2 : i = srcs.length
      · rw [if_pos h2] at hp
        have e : (concatNet srcs term).src i p = (p, 0) := if_pos h2
        rw [e, (shape _).2, if_pos hp]
        refine ⟨by simpa [h2] using hp, by simp, ?_⟩
        show (if p < srcs.length then _ else _) = _
        rw [if_pos hp, h2]
      · rw [if_neg h2] at hp
        have e : (concatNet srcs term).src i p = (srcs.length, 0) := if_neg h2
        rw [e, (shape _).2, if_neg (by simp), if_pos rfl]
        refine ⟨?_, by simp, ?_⟩
        · show srcs.length < i; omega
        · show (if srcs.length < srcs.length then _ else _) = _
          rw [if_neg (by omega), show i = srcs.length + 1 by omega, show p = 0 by omega]
  · intro i hi q hq
    have hi : i < srcs.length + 2 := hi
    rw [(shape i).2] at hq
    by_cases h : i < srcs.length
    · rw [if_pos h] at hq
      have e : (concatNet srcs term).dst i q = (srcs.length, i) := if_pos h
      rw [e, (shape _).1, if_neg (by simp), if_pos rfl]
      refine ⟨?_, h, ?_⟩
      · show srcs.length < srcs.length + 2; omega
      · show (if srcs.length = srcs.length then _ else _) = _
        rw [if_pos rfl, show q = 0 by omega]
    · rw [if_neg h] at hq
      by_cases h2 : i = srcs.length
      · rw [if_pos h2] at hq
        have e : (concatNet srcs term).dst i q = (srcs.length + 1, 0) := if_neg h
        rw [e, (shape _).1, if_neg (by simp), if_neg (by simp)]
        refine ⟨?_, by simp, ?_⟩
        · show srcs.length + 1 < srcs.length + 2; omega
        · show (if srcs.length + 1 = srcs.length then _ else _) = _
          rw [if_neg (by omega), h2, show q = 0 by omega]
      · rw [if_neg h2] at hq; omega
  · intro i hi
    simp only [concatNodes, concatNet]
    by_cases h : i < srcs.length
    · simp only [if_pos h]; rfl
    · by_cases h2 : i = srcs.length
      · simp only [if_neg h, if_pos h2]; rfl
      · simp only [if_neg h, if_neg h2]; rfl
  · intro i hi
    simp only [concatNodes]
    split
    · trivial
    · split <;> trivial

theorem ofTag_length (n : Nat) (t : List (Nat × Val α)) (ht : ∀ p ∈ t, p.1 < n) : t.length = sumTo (fun i => (ofTag t i).length) n := by
  have h := (interleaving_ofTag n t ht).perm.length_eq
  rw [List.length_map] at h
  rw [h]
  clear h ht
  induction n with
  | zero => rfl
  | succ n ih => rw [List.range_succ, List.map_append, List.flatten_append, List.length_append, ih]; simp [sumTo]

theorem sumTo_le {f g : Nat → Nat} {n : Nat} (h : ∀ i < n, f i ≤ g i) : sumTo f n ≤ sumTo g n := by
  induction n with
  | zero => simp [sumTo]
  | succ n ih =>
    have := ih fun i hi => h i (by omega)
    have := h n (by omega)
    simp only [sumTo]; omega

theorem concat_grows {n : Nat} {s : (concatC n : Comp (Val α) (Ev α K)).σ} {h : Hist (Val α) (Ev α K)} (hr : CReach (concatC n) s h) :
    (h.outs 0).length ≤ sumTo (fun i => (h.ins i).length) n := by
  obtain ⟨t, t1, t2, t3⟩ := (concat_inv hr).out
  rw [t2, List.length_map, ofTag_length n t t1]
  exact sumTo_le fun i hi => by rw [t3 i hi]; simp

theorem sumTo_items (srcs : List (Source α)) : sumTo (fun i => (srcs.getD i (.of [])).items.length) srcs.length = (srcs.map fun s => s.items.length).sum := by
  induction srcs using List.reverseRecOn with
  | nil => rfl
  | append_singleton l a ih =>
    rw [List.length_append, List.length_singleton]
    simp only [sumTo, List.map_append, List.sum_append]
    rw [← ih]
    congr 1
    · refine sumTo_congr fun p hp => ?_
      simp [List.getD_eq_getElem?_getD, List.getElem?_append_left hp]
    · simp [List.getD_eq_getElem?_getD]

theorem le_sumTo {f : Nat → Nat} {n i : Nat} (hi : i < n) : f i ≤ sumTo f n := by
  induction n with
  | zero => omega
  | succ n ih =>
    simp only [sumTo]
    by_cases e : i = n
    · subst e; omega
    · have := ih (by omega); omega

theorem concatNet_few [DecidableEq K] (srcs : List (Source α)) (term : Term α K) (hlt : (srcs.map fun s => s.items.length).sum < 2 ^ 63) :
    FewValues (concatNet srcs term) := by
  have hp := concatNet_program srcs term
  refine small_of_bounded (b := fun i _ => if i < srcs.length then (srcs.getD i (.of [])).items.length else (srcs.map fun s => s.items.length).sum)
    hp.wf ⟨?_, ?_⟩ hp.good
  · intro i hi q hq
    split
    · rename_i h
      refine Nat.lt_of_le_of_lt ?_ hlt
      rw [← sumTo_items]
      exact le_sumTo (f := fun i => (srcs.getD i (.of [])).items.length) h
    · exact hlt
  · intro i hi s h hr hs hin q hq
    by_cases hlt' : i < srcs.length
    · rw [if_pos hlt']
      have key : ∀ (src : Source α) (C : Comp (Val α) (Ev α K)), C = src.comp → ∀ (s : C.σ) (h : Hist (Val α) (Ev α K)), CReach C s h → Small lim C h →
          ∀ q < C.nout, (h.outs q).length ≤ src.items.length := by
        rintro src C rfl s h hr hs q hq
        cases src <;> exact (source_fine _ _).2.2 s h hr hs q hq
      exact key _ _ (if_pos hlt') s h hr hs q hq
    · rw [if_neg hlt']
      by_cases h2 : i = srcs.length
      · have key : ∀ (C : Comp (Val α) (Ev α K)), C = concatC srcs.length → ∀ (s : C.σ) (h : Hist (Val α) (Ev α K)), CReach C s h →
            C.nin = srcs.length ∧ ∀ q < C.nout, (h.outs q).length ≤ sumTo (fun i => (h.ins i).length) srcs.length := by
          rintro C rfl s h hr
          refine ⟨rfl, fun q hq => ?_⟩
          have : q = 0 := by simpa [concatC] using hq
          subst this
          exact concat_grows hr
        have hC : (concatNet srcs term).comp i = concatC srcs.length := by
          simp only [concatNet]; rw [if_neg hlt', if_pos h2]
        obtain ⟨k1, k2⟩ := key _ hC s h hr
        refine Nat.le_trans (k2 q hq) ?_
        rw [← sumTo_items]
        refine sumTo_le fun p hp => ?_
        have := hin p (by rw [k1]; exact hp)
        have e : (concatNet srcs term).src i p = (p, 0) := if_pos h2
        rw [e] at this
        simp only at this
        rw [if_pos hp] at this
        exact this
      · have hC : (concatNet srcs term).comp i = term.comp := by
          simp only [concatNet]; rw [if_neg hlt', if_neg h2]
        rw [hC, (term_shape term).2] at hq; omega

/-! ## A program with Copy -/

/-- The source is copied to `channels`, and copy `q` is consumed by `terms q`. -/
def copyNet [DecidableEq K] {M : Type} (src : Source α) (channels : List (M × Nat)) (terms : Nat → Term α K) : Net (Val α) (Ev α K) where
  n := channels.length + 2
  comp i := if i = 0 then src.comp else if i = 1 then (copyS (channels.map Prod.snd)).comp else (terms (i - 2)).comp
  src i _ := if i = 1 then (0, 0) else (1, i - 2)
  dst i q := if i = 0 then (1, 0) else (q + 2, 0)

/-- The operations of the program `Copy` (xstream.go:604-629) of a source, and operations that end the copies. -/
def copyNodes {M : Type} (src : Source α) (channels : List (M × Nat)) (terms : Nat → Term α K) (i : Nat) : Node α K :=
  if i = 0 then .source src else if i = 1 then .copy channels else .term (terms (i - 2))

theorem copyNet_program [DecidableEq K] {M : Type} (src : Source α) (channels : List (M × Nat)) (terms : Nat → Term α K) :
    IsProgram (copyNet src channels terms) (copyNodes src channels terms) := by
  have shape : ∀ i, ((copyNet src channels terms).comp i).nin = (if i = 0 then 0 else 1) ∧
      ((copyNet src channels terms).comp i).nout = (if i = 0 then 1 else if i = 1 then channels.length else 0) := by
    intro i
    simp only [copyNet]
    by_cases h : i = 0
    · simp only [if_pos h]; exact source_shape _
    · by_cases h2 : i = 1
      · simp only [if_neg h, if_pos h2]; exact ⟨rfl, by simp [Seq.comp, copyS]⟩
      · simp only [if_neg h, if_neg h2]; exact term_shape _
  refine ⟨⟨?_, ?_⟩, ?_, ?_⟩
  · intro i hi p hp
    have hi : i < channels.length + 2 := hi
    rw [(shape i).1] at hp
    by_cases h : i = 0
    · rw [if_pos h] at hp; omega
    · rw [if_neg h] at hp
      have hp0 : p = 0 := by omega
      subst hp0
      by_cases h2 : i = 1
      · have e : (copyNet src channels terms).src i 0 = (0, 0) := if_pos h2
        rw [e, (shape _).2, if_pos rfl]
        exact ⟨by show 0 < i; omega, by simp, by rw [h2]; rfl⟩
      · have e : (copyNet src channels terms).src i 0 = (1, i - 2) := if_neg h2
        rw [e, (shape _).2, if_neg (by simp), if_pos rfl]
        refine ⟨by show 1 < i; omega, by show i - 2 < channels.length; omega, ?_⟩
        show (if 1 = 0 then (1, 0) else (i - 2 + 2, 0)) = (i, 0)
        rw [if_neg (by omega), show i - 2 + 2 = i by omega]
  · intro i hi q hq
    have hi : i < channels.length + 2 := hi
    rw [(shape i).2] at hq
    by_cases h : i = 0
    · rw [if_pos h] at hq
      have hq0 : q = 0 := by omega
      subst hq0
      have e : (copyNet src channels terms).dst i 0 = (1, 0) := if_pos h
      rw [e, (shape _).1, if_neg (by simp)]
      exact ⟨by show 1 < channels.length + 2; omega, by simp, by rw [h]; rfl⟩
    · rw [if_neg h] at hq
      by_cases h2 : i = 1
      · rw [if_pos h2] at hq
        have e : (copyNet src channels terms).dst i q = (q + 2, 0) := if_neg h
        rw [e, (shape _).1, if_neg (by simp)]
        refine ⟨by show q + 2 < channels.length + 2; omega, by simp, ?_⟩
        show (if q + 2 = 1 then (0, 0) else (1, q + 2 - 2)) = (i, q)
        rw [if_neg (by omega), h2, Nat.add_sub_cancel]
      · rw [if_neg h2] at hq; omega
  · intro i hi
    simp only [copyNodes, copyNet]
    by_cases h : i = 0
    · simp only [if_pos h]; rfl
    · by_cases h2 : i = 1
      · simp only [if_neg h, if_pos h2]; rfl
      · simp only [if_neg h, if_neg h2]; rfl
  · intro i hi
    simp only [copyNodes]
    split
    · trivial
    · split <;> trivial

theorem copyNet_bounded [DecidableEq K] {M : Type} (src : Source α) (channels : List (M × Nat)) (terms : Nat → Term α K) (hlt : src.items.length < 2 ^ 63) :
    (copyNet src channels terms).Bounded lim fun _ _ => src.items.length := by
  refine ⟨?_, ?_⟩
  · intro i hi q hq; exact hlt
  · intro i hi s h hr hs hin q hq
    by_cases h0 : i = 0
    · have key : ∀ (src : Source α) (C : Comp (Val α) (Ev α K)), C = src.comp → ∀ (s : C.σ) (h : Hist (Val α) (Ev α K)), CReach C s h → Small lim C h →
          ∀ q < C.nout, (h.outs q).length ≤ src.items.length := by
        rintro src C rfl s h hr hs q hq
        cases src <;> exact (source_fine _ _).2.2 s h hr hs q hq
      have := key _ _ (if_pos h0) s h hr hs q hq
      omega
    · by_cases h2 : i = 1
      · have key : ∀ (C : Comp (Val α) (Ev α K)), C = (copyS (channels.map Prod.snd)).comp → ∀ (s : C.σ) (h : Hist (Val α) (Ev α K)), CReach C s h →
            Small lim C h → C.nin = 1 ∧ ∀ q < C.nout, (h.outs q).length ≤ (if C.nin = 0 then 0 else (h.ins 0).length) := by
          rintro C rfl s h hr hs
          exact ⟨rfl, (copy_fine _).2.2 s h hr hs⟩
        have hC : (copyNet src channels terms).comp i = (copyS (channels.map Prod.snd)).comp := by
          simp only [copyNet]; rw [if_neg h0, if_pos h2]
        obtain ⟨k1, k2⟩ := key _ hC s h hr hs
        have h3 := k2 q hq
        have h4 := hin 0 (by rw [k1]; omega)
        rw [k1, if_neg (by omega)] at h3
        omega
      · have hC : (copyNet src channels terms).comp i = (terms (i - 2)).comp := by
          simp only [copyNet]; rw [if_neg h0, if_neg h2]
        rw [hC, (term_shape _).2] at hq; omega

theorem copyNet_few [DecidableEq K] {M : Type} (src : Source α) (channels : List (M × Nat)) (terms : Nat → Term α K) (hlt : src.items.length < 2 ^ 63) :
    FewValues (copyNet src channels terms) :=
  have hp := copyNet_program src channels terms
  small_of_bounded hp.wf (copyNet_bounded src channels terms hlt) hp.good

end Verif.XStream

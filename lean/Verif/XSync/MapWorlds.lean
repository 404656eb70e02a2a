import Verif.XSync.MapWords
/-! # `Clear` concurrent with other operations: steps on different states -/
namespace Verif.XSync.MapWords
open Verif.Conc Verif.Go Verif.XSync.MapConc
open Verif.XSync.MapClear (Typ)

variable {K V : Type} [DecidableEq K] [DecidableEq V]

/-! ## The same step on two states -/

/-- The entries whose pointers the next step of a call accesses. -/
def ents : Pt K V → List Nat
  | .tryLoad _ e | .cas _ e _ _ | .reload _ e _ | .unexp e | .storeLocked e | .buildE _ _ _ e | .buildC _ _ _ e | .eload e | .del e | .delCas e _ => [e]
  | .iter todo _ => todo.map (·.2)
  | _ => []

/-- Two states that a step cannot distinguish, if it accesses only entries from `lo` on. -/
structure Agree (lo : Nat) (a b : G K V) : Prop where
  mu : a.mu = b.mu
  read : a.read = b.read
  amended : a.amended = b.amended
  dirty : a.dirty = b.dirty
  misses : a.misses = b.misses
  next : a.next = b.next
  bound : lo ≤ b.next
  p : ∀ e, lo ≤ e → e < b.next → a.p e = b.p e

omit [DecidableEq K] [DecidableEq V] in
theorem Agree.setP {lo : Nat} {a b : G K V} (h : Agree lo a b) (e : Nat) (x : Ptr V) : Agree lo (a.setP e x) (b.setP e x) := by
  refine ⟨h.mu, h.read, h.amended, h.dirty, h.misses, h.next, h.bound, ?_⟩
  intro e' h1 h2
  simp only [G.setP, upd]
  split
  · rfl
  · exact h.p e' h1 h2

omit [DecidableEq V] in
theorem agree_locked {lo : Nat} {a b : G K V} (h : Agree lo a b) (op : Op K V) :
    (lockedStep a op).2 = (lockedStep b op).2 ∧ Agree lo (lockedStep a op).1 (lockedStep b op).1 := by
  obtain ⟨h1, h2, h3, h4, h5, h6, h7, h8⟩ := h
  cases op <;> simp only [lockedStep, G.dirtyGet, h2, h3, h4] <;> (repeat' split) <;> first
    | exact ⟨trivial, h1, h2, h3, h4, h5, h6, h7, h8⟩
    | exact ⟨rfl, h1, h2, h3, h4, h5, h6, h7, h8⟩
    | exact ⟨rfl, h1, rfl, rfl, rfl, h5, h6, h7, h8⟩

theorem step_agree {lo : Nat} {a b a' : G K V} {i c : Nat} {op : Op K V} {s : Pt K V} {x : Pt K V ⊕ Res K V} (h : Agree lo a b)
    (he : ∀ e ∈ ents s, lo ≤ e ∧ e < b.next) (hst : step a i op s c = some (a', x)) :
    ∃ b', step b i op s c = some (b', x) ∧ Agree lo a' b' := by
  have hq := h
  obtain ⟨h1, h2, h3, h4, h5, h6, h7, h8⟩ := h
  have hp : ∀ e ∈ ents s, a.p e = b.p e := fun e hm => h8 e (he e hm).1 (he e hm).2
  cases s with
  | start =>
    simp only [step, Option.some.injEq, Prod.mk.injEq] at hst ⊢
    obtain ⟨rfl, rfl⟩ := hst
    refine ⟨b, ⟨rfl, ?_⟩, hq⟩
    cases op <;> simp only [startStep, h2, h3]
  | locked =>
    simp only [step, Option.some.injEq, Prod.mk.injEq] at hst ⊢
    obtain ⟨rfl, rfl⟩ := hst
    obtain ⟨q1, q2⟩ := agree_locked hq op
    exact ⟨_, ⟨rfl, by rw [q1]⟩, q2⟩
  | unexp e =>
    have hpe := hp e (by simp [ents])
    simp only [step, hpe, G.setDirty, G.setP] at hst ⊢
    split at hst
    · rename_i hx
      rw [if_pos hx]
      split at hst
      · simp at hst
      · rename_i k hk
        simp only [h4] at hst ⊢
        cases hd : b.dirty with
        | none =>
          simp only [hd, Option.some.injEq, Prod.mk.injEq] at hst ⊢
          obtain ⟨rfl, rfl⟩ := hst
          exact ⟨_, ⟨rfl, rfl⟩, by have := hq.setP e .nil; simpa only [G.setP, h4, hd] using this⟩
        | some d =>
          simp only [hd, Option.some.injEq, Prod.mk.injEq] at hst ⊢
          obtain ⟨rfl, rfl⟩ := hst
          have := hq.setP e .nil
          exact ⟨_, ⟨rfl, rfl⟩, this.mu, this.read, this.amended, rfl, this.misses, this.next, this.bound, this.p⟩
    · rename_i hx
      rw [if_neg hx]
      simp only [Option.some.injEq, Prod.mk.injEq] at hst ⊢
      obtain ⟨rfl, rfl⟩ := hst
      exact ⟨b, ⟨rfl, rfl⟩, hq⟩
  | add v =>
    simp only [step, G.setDirty] at hst ⊢
    cases hk : op.key? with
    | none => simp [hk] at hst
    | some k =>
      simp only [hk, h4] at hst ⊢
      cases hd : b.dirty with
      | none =>
        simp only [hd, Option.some.injEq, Prod.mk.injEq] at hst ⊢
        obtain ⟨rfl, rfl⟩ := hst
        exact ⟨b, ⟨rfl, rfl⟩, hq⟩
      | some d =>
        simp only [hd, Option.some.injEq, Prod.mk.injEq] at hst ⊢
        obtain ⟨rfl, rfl⟩ := hst
        refine ⟨_, ⟨rfl, rfl⟩, h1, h2, h3, by simp [h6], h5, by simp [h6], by simp; omega, ?_⟩
        intro e' q1 q2
        simp only [upd, h6] at q2 ⊢
        split
        · rfl
        · exact h8 e' q1 (by omega)
  | iter todo vis =>
    have hp' : ∀ y ∈ todo, a.p y.2 = b.p y.2 := fun y hy => hp _ (by simp only [ents, List.mem_map]; exact ⟨y, hy, rfl⟩)
    simp only [step] at hst ⊢
    cases todo with
    | nil => simp only [Option.some.injEq, Prod.mk.injEq] at hst ⊢; obtain ⟨rfl, rfl⟩ := hst; exact ⟨b, ⟨rfl, rfl⟩, hq⟩
    | cons y ys =>
      simp only at hst ⊢
      cases hx : (y :: ys)[c % (y :: ys).length]? with
      | none => rw [hx] at hst; simp at hst
      | some z =>
        rw [hx] at hst
        simp only [hp' z (List.mem_of_getElem? hx)] at hst ⊢
        cases hz : b.p z.2 <;> simp only [hz, Option.some.injEq, Prod.mk.injEq] at hst ⊢ <;> obtain ⟨rfl, rfl⟩ := hst <;> exact ⟨b, ⟨rfl, rfl⟩, hq⟩
  | buildE rm rest k e =>
    have hpe := hp e (by simp [ents])
    simp only [step, hpe, G.setDirty, h4] at hst ⊢
    cases hb : b.p e <;> simp only [hb] at hst ⊢
    · simp only [Option.some.injEq, Prod.mk.injEq] at hst ⊢; obtain ⟨rfl, rfl⟩ := hst; exact ⟨b, ⟨rfl, rfl⟩, hq⟩
    · simp only [Option.some.injEq, Prod.mk.injEq] at hst ⊢; obtain ⟨rfl, rfl⟩ := hst; exact ⟨b, ⟨rfl, rfl⟩, hq⟩
    · cases hd : b.dirty with
      | none => simp only [hd, Option.some.injEq, Prod.mk.injEq] at hst ⊢; obtain ⟨rfl, rfl⟩ := hst; exact ⟨b, ⟨rfl, rfl⟩, hq⟩
      | some d =>
        simp only [hd, Option.some.injEq, Prod.mk.injEq] at hst ⊢
        obtain ⟨rfl, rfl⟩ := hst
        exact ⟨_, ⟨rfl, rfl⟩, h1, h2, h3, rfl, h5, h6, h7, h8⟩
  | build0 rm =>
    simp only [step, h4] at hst ⊢
    cases hd : b.dirty with
    | none =>
      simp only [hd, Option.some.injEq, Prod.mk.injEq] at hst ⊢
      obtain ⟨rfl, rfl⟩ := hst
      exact ⟨_, ⟨rfl, by rw [h2]⟩, h1, h2, h3, rfl, h5, h6, h7, h8⟩
    | some d =>
      simp only [hd, Option.some.injEq, Prod.mk.injEq] at hst ⊢
      obtain ⟨rfl, rfl⟩ := hst
      exact ⟨_, ⟨rfl, rfl⟩, hq⟩
  | build rm todo =>
    simp only [step] at hst ⊢
    cases todo with
    | nil => simp only [Option.some.injEq, Prod.mk.injEq] at hst ⊢; obtain ⟨rfl, rfl⟩ := hst; exact ⟨b, ⟨rfl, rfl⟩, hq⟩
    | cons y ys =>
      simp only at hst ⊢
      cases hx : (y :: ys)[c % (y :: ys).length]? with
      | none => rw [hx] at hst; simp at hst
      | some z =>
        rw [hx] at hst
        simp only [Option.some.injEq, Prod.mk.injEq] at hst ⊢; obtain ⟨rfl, rfl⟩ := hst; exact ⟨b, ⟨rfl, rfl⟩, hq⟩
  | lock =>
    simp only [step, h1] at hst ⊢
    split at hst
    · simp at hst
    · rename_i hm
      rw [if_neg hm]
      simp only [Option.some.injEq, Prod.mk.injEq] at hst ⊢; obtain ⟨rfl, rfl⟩ := hst
      exact ⟨_, ⟨rfl, rfl⟩, rfl, h2, h3, h4, h5, h6, h7, h8⟩
  | miss k =>
    simp only [step, h4, h5, Option.some.injEq, Prod.mk.injEq] at hst ⊢; obtain ⟨rfl, rfl⟩ := hst
    exact ⟨_, ⟨rfl, rfl⟩, h1, h2, h3, rfl, rfl, h6, h7, h8⟩
  | promote k =>
    simp only [step, Option.some.injEq, Prod.mk.injEq] at hst ⊢; obtain ⟨rfl, rfl⟩ := hst
    exact ⟨_, ⟨rfl, rfl⟩, h1, by simp [G.promoted, h4], rfl, rfl, rfl, h6, h7, h8⟩
  | rpromote =>
    simp only [step, Option.some.injEq, Prod.mk.injEq] at hst ⊢; obtain ⟨rfl, rfl⟩ := hst
    exact ⟨_, ⟨rfl, by rw [h4]⟩, h1, by simp [G.promoted, h4], rfl, rfl, rfl, h6, h7, h8⟩
  | amend rm =>
    simp only [step] at hst ⊢
    cases ha : afterAmend op with
    | none => simp [ha] at hst
    | some s' =>
      simp only [ha, Option.some.injEq, Prod.mk.injEq] at hst ⊢; obtain ⟨rfl, rfl⟩ := hst
      exact ⟨_, ⟨rfl, rfl⟩, h1, rfl, rfl, h4, h5, h6, h7, h8⟩
  | unlock k =>
    simp only [step, Option.some.injEq, Prod.mk.injEq] at hst ⊢; obtain ⟨rfl, rfl⟩ := hst
    exact ⟨_, ⟨rfl, rfl⟩, rfl, h2, h3, h4, h5, h6, h7, h8⟩
  | addCall =>
    simp only [step] at hst ⊢
    cases op <;> simp only [Option.some.injEq, Prod.mk.injEq, reduceCtorEq] at hst ⊢
    obtain ⟨rfl, rfl⟩ := hst
    exact ⟨_, ⟨rfl, rfl⟩, h1, h2, h3, h4, h5, h6, h7, h8⟩
  | call m e p =>
    simp only [step] at hst ⊢
    cases hc : callF op p c with
    | none => simp [hc] at hst
    | some y =>
      simp only [hc, Option.some.injEq, Prod.mk.injEq] at hst ⊢; obtain ⟨rfl, rfl⟩ := hst
      exact ⟨_, ⟨rfl, rfl⟩, h1, h2, h3, h4, h5, h6, h7, h8⟩
  | icall todo vis k v =>
    simp only [step] at hst ⊢
    cases op <;> simp only [Option.some.injEq, Prod.mk.injEq, reduceCtorEq] at hst ⊢
    obtain ⟨rfl, rfl⟩ := hst
    exact ⟨_, ⟨rfl, rfl⟩, hq⟩
  | storeLocked e =>
    simp only [step] at hst ⊢
    cases op <;> simp only [Option.some.injEq, Prod.mk.injEq, reduceCtorEq] at hst ⊢
    obtain ⟨rfl, rfl⟩ := hst
    exact ⟨_, ⟨rfl, rfl⟩, hq.setP _ _⟩
  | tryLoad m e =>
    have hpe := hp e (by simp [ents])
    simp only [step, hpe, Option.some.injEq, Prod.mk.injEq] at hst ⊢; obtain ⟨rfl, rfl⟩ := hst
    exact ⟨b, ⟨rfl, rfl⟩, hq⟩
  | reload m e y =>
    have hpe := hp e (by simp [ents])
    simp only [step, hpe, Option.some.injEq, Prod.mk.injEq] at hst ⊢; obtain ⟨rfl, rfl⟩ := hst
    exact ⟨b, ⟨rfl, rfl⟩, hq⟩
  | eload e =>
    have hpe := hp e (by simp [ents])
    simp only [step, hpe, Option.some.injEq, Prod.mk.injEq] at hst ⊢; obtain ⟨rfl, rfl⟩ := hst
    exact ⟨b, ⟨rfl, rfl⟩, hq⟩
  | del e =>
    have hpe := hp e (by simp [ents])
    simp only [step, hpe] at hst ⊢
    cases hb : b.p e <;> simp only [hb, Option.some.injEq, Prod.mk.injEq] at hst ⊢ <;> obtain ⟨rfl, rfl⟩ := hst <;> exact ⟨b, ⟨rfl, rfl⟩, hq⟩
  | cas m e p y =>
    have hpe := hp e (by simp [ents])
    simp only [step, hpe] at hst ⊢
    by_cases hb : b.p e = p <;> simp only [hb, if_true, if_false, Option.some.injEq, Prod.mk.injEq] at hst ⊢ <;> obtain ⟨rfl, rfl⟩ := hst
    · exact ⟨_, ⟨rfl, rfl⟩, hq.setP _ _⟩
    · exact ⟨b, ⟨rfl, rfl⟩, hq⟩
  | delCas e p =>
    have hpe := hp e (by simp [ents])
    simp only [step, hpe] at hst ⊢
    by_cases hb : b.p e = p <;> simp only [hb, if_true, if_false, Option.some.injEq, Prod.mk.injEq] at hst ⊢ <;> obtain ⟨rfl, rfl⟩ := hst
    · exact ⟨_, ⟨rfl, rfl⟩, hq.setP _ _⟩
    · exact ⟨b, ⟨rfl, rfl⟩, hq⟩
  | buildC rm rest k e =>
    have hpe := hp e (by simp [ents])
    simp only [step, hpe] at hst ⊢
    by_cases hb : b.p e = .nil <;> simp only [hb, if_true, if_false, Option.some.injEq, Prod.mk.injEq] at hst ⊢ <;> obtain ⟨rfl, rfl⟩ := hst
    · exact ⟨_, ⟨rfl, rfl⟩, hq.setP _ _⟩
    · exact ⟨b, ⟨rfl, rfl⟩, hq⟩

/-- A step without the lock changes at most the pointer of one entry. -/
structure FreeStep (s : Pt K V) (a a' b b' : G K V) : Prop where
  left : ∃ p n, a' = { a with p := p, calls := n }
  right : ∃ p n, b' = { b with p := p, calls := n }
  p : (a'.p = a.p ∧ b'.p = b.p) ∨ ∃ e ∈ ents s, ∃ y, a'.p = upd a.p e y ∧ b'.p = upd b.p e y

theorem step_free {a b a' : G K V} {i c : Nat} {op : Op K V} {s : Pt K V} {x : Pt K V ⊕ Res K V} (hs : s.holds = false) (h1 : s ≠ .start) (h2 : s ≠ .lock)
    (hp : ∀ e ∈ ents s, a.p e = b.p e) (hst : step a i op s c = some (a', x)) : ∃ b', step b i op s c = some (b', x) ∧ FreeStep s a a' b b' := by
  have same : FreeStep s a a b b := ⟨⟨_, _, rfl⟩, ⟨_, _, rfl⟩, Or.inl ⟨rfl, rfl⟩⟩
  cases s with
  | start => exact absurd rfl h1
  | lock => exact absurd rfl h2
  | iter todo vis =>
    have hp' : ∀ y ∈ todo, a.p y.2 = b.p y.2 := fun y hy => hp _ (by simp only [ents, List.mem_map]; exact ⟨y, hy, rfl⟩)
    simp only [step] at hst ⊢
    cases todo with
    | nil => simp only [Option.some.injEq, Prod.mk.injEq] at hst ⊢; obtain ⟨rfl, rfl⟩ := hst; exact ⟨b, ⟨rfl, rfl⟩, same⟩
    | cons y ys =>
      simp only at hst ⊢
      cases hx : (y :: ys)[c % (y :: ys).length]? with
      | none => rw [hx] at hst; simp at hst
      | some z =>
        rw [hx] at hst
        simp only [hp' z (List.mem_of_getElem? hx)] at hst ⊢
        cases hz : b.p z.2 <;> simp only [hz, Option.some.injEq, Prod.mk.injEq] at hst ⊢ <;> obtain ⟨rfl, rfl⟩ := hst <;> exact ⟨b, ⟨rfl, rfl⟩, same⟩
  | icall todo vis k v =>
    simp only [step] at hst ⊢
    cases op <;> simp only [Option.some.injEq, Prod.mk.injEq, reduceCtorEq] at hst ⊢
    obtain ⟨rfl, rfl⟩ := hst
    exact ⟨_, ⟨rfl, rfl⟩, same⟩
  | call m e p =>
    simp only [step] at hst ⊢
    cases hc : callF op p c with
    | none => simp [hc] at hst
    | some y =>
      simp only [hc, Option.some.injEq, Prod.mk.injEq] at hst ⊢; obtain ⟨rfl, rfl⟩ := hst
      exact ⟨_, ⟨rfl, rfl⟩, ⟨_, _, rfl⟩, ⟨_, _, rfl⟩, Or.inl ⟨rfl, rfl⟩⟩
  | tryLoad m e =>
    have hpe := hp e (by simp [ents])
    simp only [step, hpe, Option.some.injEq, Prod.mk.injEq] at hst ⊢; obtain ⟨rfl, rfl⟩ := hst
    exact ⟨b, ⟨rfl, rfl⟩, same⟩
  | reload m e y =>
    have hpe := hp e (by simp [ents])
    simp only [step, hpe, Option.some.injEq, Prod.mk.injEq] at hst ⊢; obtain ⟨rfl, rfl⟩ := hst
    exact ⟨b, ⟨rfl, rfl⟩, same⟩
  | eload e =>
    have hpe := hp e (by simp [ents])
    simp only [step, hpe, Option.some.injEq, Prod.mk.injEq] at hst ⊢; obtain ⟨rfl, rfl⟩ := hst
    exact ⟨b, ⟨rfl, rfl⟩, same⟩
  | del e =>
    have hpe := hp e (by simp [ents])
    simp only [step, hpe] at hst ⊢
    cases hb : b.p e <;> simp only [hb, Option.some.injEq, Prod.mk.injEq] at hst ⊢ <;> obtain ⟨rfl, rfl⟩ := hst <;> exact ⟨b, ⟨rfl, rfl⟩, same⟩
  | cas m e p y =>
    have hpe := hp e (by simp [ents])
    simp only [step, hpe] at hst ⊢
    by_cases hb : b.p e = p <;> simp only [hb, if_true, if_false, Option.some.injEq, Prod.mk.injEq] at hst ⊢ <;> obtain ⟨rfl, rfl⟩ := hst
    · exact ⟨_, ⟨rfl, rfl⟩, ⟨_, _, rfl⟩, ⟨_, _, rfl⟩, Or.inr ⟨e, by simp [ents], _, rfl, rfl⟩⟩
    · exact ⟨b, ⟨rfl, rfl⟩, same⟩
  | delCas e p =>
    have hpe := hp e (by simp [ents])
    simp only [step, hpe] at hst ⊢
    by_cases hb : b.p e = p <;> simp only [hb, if_true, if_false, Option.some.injEq, Prod.mk.injEq] at hst ⊢ <;> obtain ⟨rfl, rfl⟩ := hst
    · exact ⟨_, ⟨rfl, rfl⟩, ⟨_, _, rfl⟩, ⟨_, _, rfl⟩, Or.inr ⟨e, by simp [ents], _, rfl, rfl⟩⟩
    · exact ⟨b, ⟨rfl, rfl⟩, same⟩
  | _ => simp [Pt.holds] at hs

omit [DecidableEq V] in
/-- The entries that a call accesses were created for some key. -/
theorem ents_key {g : G K V} {v : Vw K V} {gh : Gh K V} {i : Nat} {op : Op K V} {s : Pt K V} (hI : I g v gh) (hv : v i = some (op, .inl s)) :
    ∀ e ∈ ents s, g.key e ≠ none := by
  have hR : ∀ k e, g.a.rd k = some e → g.key e ≠ none := fun k e h => by
    have := hI.gi.keyR k e h
    simp only [G.a] at this; simp [this]
  have hD : ∀ k e, g.a.dt k = some e → g.key e ≠ none := fun k e h => by
    have := hI.gi.keyD k e h
    simp only [G.a] at this; simp [this]
  have hO : ∀ k e, g.a.Orphan k e → g.key e ≠ none := fun k e h => by
    have := h.1
    simp only [G.a] at this; simp [this]
  have hHR : ∀ sw k e, HeldR g.a sw k e → g.key e ≠ none := fun sw k e h => h.elim (hR k e) (fun h => hO k e h.1)
  have hf := hI.floc i op s hv
  have hl := hI.lloc i op s hv
  have hmode := hI.mu i op s hv
  have tri : ∀ m e, FTry g.a gh i op m e → (m ≠ .free → LEnt g.a op m e) → g.key e ≠ none := by
    intro m e h h'
    cases m with
    | free => obtain ⟨k, _, hk⟩ := h.2.2 rfl; exact hHR _ k e hk
    | inRead => obtain ⟨k, _, hk, _⟩ := h' (by simp); exact hR k e hk
    | inDirty => obtain ⟨k, _, _, hk⟩ := h' (by simp); exact hD k e hk
  have del : ∀ e q, DelOk g.a gh i op e q → g.key e ≠ none := by
    rintro e q ⟨k, _, ⟨_, h⟩ | ⟨_, _, h, _⟩⟩
    · exact hHR _ k e h
    · exact hO k e h
  have bld : ∀ k e l, s.mode = some l → (k, e) ∈ l → s.holds = true → g.key e ≠ none := by
    intro k e l h1 h2 h3
    have hm : modeAt g.mu v = some l := by simp [modeAt, hmode.1 h3, hv, h1]
    exact hR k e (hI.gi.todo k e l hm h2)
  intro e he
  cases s <;> simp only [ents, List.mem_cons, List.not_mem_nil, or_false, List.mem_map] at he
  case tryLoad m e' => subst he; exact tri m _ hf (fun h => hl (by simp [Pt.holds, h]))
  case cas m e' p x => subst he; exact tri m _ hf.1 (fun h => hl (by simp [Pt.holds, h]))
  case reload m e' x => subst he; exact tri m _ hf.1 (fun h => hl (by simp [Pt.holds, h]))
  case unexp e' => subst he; obtain ⟨k, _, h⟩ := hl rfl; exact hR k _ h
  case storeLocked e' => subst he; obtain ⟨k, _, h, _⟩ := hl rfl; exact h.elim (hR k _) (fun h => hD k _ h.2)
  case buildE rm rest k e' => subst he; exact bld k _ _ rfl (List.mem_cons_self ..) rfl
  case buildC rm rest k e' => subst he; exact bld k _ _ rfl (List.mem_cons_self ..) rfl
  case eload e' =>
    subst he
    obtain ⟨_, k, _, h⟩ := hf
    exact h.elim (fun h => h.elim (hR k _) (fun h => hD k _ h.2)) (fun h => hO k _ h.1)
  case del e' => subst he; exact del _ _ hf
  case delCas e' p => subst he; exact del _ _ hf.1
  case iter todo vis =>
    obtain ⟨y, hy, rfl⟩ := he
    obtain ⟨_, _, _, _, h, _⟩ := hf
    exact hHR _ _ _ (h y hy)

/-- Keys are only given to new entries. -/
theorem step_key {g g' : G K V} {i c : Nat} {op : Op K V} {s : Pt K V} {x : Pt K V ⊕ Res K V} (hst : step g i op s c = some (g', x)) :
    g.next ≤ g'.next ∧ ∀ e, g'.key e ≠ none → g.key e ≠ none ∨ (g.next ≤ e ∧ e < g'.next) := by
  have fin : ∀ {h : G K V}, h.next = g.next → h.key = g.key → g.next ≤ h.next ∧ ∀ e, h.key e ≠ none → g.key e ≠ none ∨ (g.next ≤ e ∧ e < h.next) := by
    intro h h1 h2
    exact ⟨by omega, fun e he => Or.inl (by rw [← h2]; exact he)⟩
  cases s with
  | add v =>
    simp only [step, G.setDirty] at hst
    cases hk : op.key? with
    | none => simp [hk] at hst
    | some k =>
      simp only [hk] at hst
      cases hd : g.dirty with
      | none => simp only [hd, Option.some.injEq, Prod.mk.injEq] at hst; obtain ⟨rfl, rfl⟩ := hst; exact fin rfl rfl
      | some d =>
        simp only [hd, Option.some.injEq, Prod.mk.injEq] at hst
        obtain ⟨rfl, rfl⟩ := hst
        refine ⟨by simp, ?_⟩
        intro e he
        simp only [upd] at he
        split at he
        · rename_i h; subst h; exact Or.inr ⟨Nat.le_refl _, by simp⟩
        · exact Or.inl he
  | locked =>
    simp only [step, Option.some.injEq, Prod.mk.injEq] at hst
    obtain ⟨rfl, rfl⟩ := hst
    cases op <;> simp only [lockedStep] <;> (repeat' split) <;> exact fin rfl rfl
  | _ =>
    simp only [step, G.setDirty, G.setP, G.promoted] at hst
    (repeat' split at hst) <;> simp only [Option.some.injEq, Prod.mk.injEq, reduceCtorEq] at hst <;> obtain ⟨rfl, rfl⟩ := hst <;>
      first | exact fin rfl rfl | (rename_i h; split at h <;> simp only [Option.some.injEq, reduceCtorEq] at h; subst h; exact fin rfl rfl)

end Verif.XSync.MapWords

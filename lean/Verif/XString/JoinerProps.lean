import Verif.XString.Joiner
import Verif.Go.Utf8Lemmas
/-! # Property theorems for the Joiner (C66, C67) -/
namespace Verif.XString.Joiner
open Verif.Go

/-! ## Specification -/

/-- `items` separated by exactly one `step`. -/
def joined (step : Bytes) : List Bytes → Bytes
  | [] => []
  | [x] => x
  | x :: y :: zs => x ++ step ++ joined step (y :: zs)

/-- The text a call writes, if it is a writing call. -/
def item : Call → Option Bytes
  | .writeRune r => some (encodeRune r)
  | .writeString s => some s
  | .writeByte c => some [c]
  | .write p => some p
  | .grow _ => none
  | .reset => none

/-- Items written since the last reset, reading the history from the left (`acc`: items so far). -/
def itemsFrom (acc : List Bytes) : List Call → List Bytes
  | [] => acc
  | .reset :: cs => itemsFrom [] cs
  | c :: cs => itemsFrom (acc ++ (item c).toList) cs

/-- The items a user expects to see: those written since the last `Reset`. -/
def expectedItems (cs : List Call) : List Bytes := itemsFrom [] cs

/-! ## Invariant -/

/-- What the builder holds after a history, as a function of the surviving items: `lead` says whether the builder
already existed when the first of them was written. -/
def body (step : Bytes) (lead : Bool) (items : List Bytes) : Bytes :=
  match items with
  | [] => []
  | _ => (if lead then step else []) ++ joined step items

theorem joined_snoc (st : Bytes) (xs : List Bytes) (y : Bytes) (h : xs ≠ []) :
    joined st (xs ++ [y]) = joined st xs ++ st ++ y := by
  induction xs with
  | nil => exact absurd rfl h
  | cons x xs ih =>
    cases xs with
    | nil => simp [joined]
    | cons z zs =>
      have := ih (by simp)
      simp only [List.cons_append] at this ⊢
      rw [joined, this, joined]
      simp [List.append_assoc]

theorem body_snoc (st : Bytes) (lead : Bool) (xs : List Bytes) (y : Bytes) (h : xs ≠ []) :
    body st lead (xs ++ [y]) = body st lead xs ++ st ++ y := by
  cases xs with
  | nil => exact absurd rfl h
  | cons x xs =>
    have := joined_snoc st (x :: xs) y (by simp)
    simp only [body, List.cons_append] at this ⊢
    rw [this]
    simp [List.append_assoc]

/-- Whether a builder exists when the first surviving item is written. -/
def leadFrom (exists_ lead : Bool) (acc : List Bytes) : List Call → Bool
  | [] => lead
  | .reset :: cs => leadFrom exists_ exists_ [] cs
  | .grow _ :: cs => leadFrom true (if acc = [] then true else lead) acc cs
  | c :: cs => leadFrom true (if acc = [] then exists_ else lead) (acc ++ (item c).toList) cs

/-- Proof only: part of an invariant or simulation; models no code. -/
structure Inv (j : Joiner) (ex₀ lead₀ : Bool) (items : List Bytes) : Prop where
  ex : j.b.isSome = ex₀
  buf : ∀ b, j.b = some b → b.buf = body j.opts.step lead₀ items
  none : j.b = none → items = []
  lead : items = [] → lead₀ = ex₀

theorem inv_write (g : Growth) (j : Joiner) (ex lead : Bool) (items : List Bytes) (h : Inv j ex lead items) (p : Bytes) :
    Inv { j with b := some ((j.tryWriteStep g).append g p) } true (if items = [] then ex else lead) (items ++ [p]) := by
  refine ⟨rfl, ?_, by simp, by simp⟩
  intro b hb
  simp only [Option.some.injEq] at hb
  subst hb
  unfold Builder.append Joiner.tryWriteStep
  cases hj : j.b with
  | none =>
    have hi := h.none hj
    have he := h.ex
    rw [hj] at he
    subst hi
    simp [Builder.empty, body, ← he, joined]
  | some b =>
    have hb := h.buf b hj
    have he := h.ex
    rw [hj] at he
    by_cases hi : items = []
    · subst hi
      simp only [Builder.append, hb, body, List.nil_append, ← he, joined]
      simp
    · simp only [Builder.append, hi, if_false]
      rw [body_snoc _ _ _ _ hi, hb]

theorem inv_run (g : Growth) (cs : List Call) : ∀ (j : Joiner) (ex lead : Bool) (items : List Bytes), Inv j ex lead items →
    ∀ j', run g j cs = some j' → j'.opts = j.opts ∧ j'.n = j.n ∧
      (Inv j' j'.b.isSome (leadFrom ex lead items cs) (itemsFrom items cs)) := by
  induction cs with
  | nil =>
    intro j ex lead items h j' hr
    simp [run] at hr; subst hr
    refine ⟨rfl, rfl, ?_⟩
    have := h.ex
    simp only [leadFrom, itemsFrom, this]
    exact h
  | cons c cs ih =>
    intro j ex lead items h j' hr
    simp only [run] at hr
    cases c with
    | writeRune r =>
      have := inv_write g j ex lead items h (encodeRune r)
      simp only [step, Option.bind_some] at hr
      simpa [leadFrom, itemsFrom, item] using ih _ _ _ _ this _ hr
    | writeString s =>
      have := inv_write g j ex lead items h s
      simp only [step, Option.bind_some] at hr
      simpa [leadFrom, itemsFrom, item] using ih _ _ _ _ this _ hr
    | writeByte s =>
      have := inv_write g j ex lead items h [s]
      simp only [step, Option.bind_some] at hr
      simpa [leadFrom, itemsFrom, item] using ih _ _ _ _ this _ hr
    | write s =>
      have := inv_write g j ex lead items h s
      simp only [step, Option.bind_some] at hr
      simpa [leadFrom, itemsFrom, item] using ih _ _ _ _ this _ hr
    | grow n =>
      simp only [step, Joiner.grow] at hr
      cases hj : j.b with
      | none =>
        have hi := h.none hj
        simp only [hj, Builder.grow, orEmpty] at hr
        split at hr
        · simp at hr
        · split at hr
          · simp only [Option.map_some, Option.bind_some] at hr
            have hI : Inv { j with b := some ⟨Builder.empty.buf, g.newCap Builder.empty.cap (2 * Builder.empty.cap + n.toNat)⟩ }
                true true items := ⟨rfl, by intro b hb; simp at hb; subst hb; simp [hi, body, Builder.empty], by simp, by simp⟩
            simpa [leadFrom, itemsFrom, item, hi] using ih _ _ _ _ hI _ hr
          · simp only [Option.map_some, Option.bind_some] at hr
            have hI : Inv { j with b := some Builder.empty } true true items :=
              ⟨rfl, by intro b hb; simp at hb; subst hb; simp [hi, body, Builder.empty], by simp, by simp⟩
            simpa [leadFrom, itemsFrom, item, hi] using ih _ _ _ _ hI _ hr
      | some b =>
        have hb := h.buf b hj
        have he := h.ex
        rw [hj] at he
        have hl := h.lead
        simp only [hj, Builder.grow, orEmpty] at hr
        have hlead : (if items = [] then true else lead) = lead := by
          split
          · rename_i hi; rw [hl hi, ← he]; rfl
          · rfl
        split at hr
        · simp at hr
        · split at hr
          · simp only [Option.map_some, Option.bind_some] at hr
            have hI : Inv { j with b := some ⟨b.buf, g.newCap b.cap (2 * b.cap + n.toNat)⟩ } true lead items :=
              ⟨rfl, by intro b' hb'; simp at hb'; subst hb'; exact hb, by simp, by intro hi; rw [hl hi, ← he]; rfl⟩
            simpa [leadFrom, itemsFrom, item, hlead] using ih _ _ _ _ hI _ hr
          · simp only [Option.map_some, Option.bind_some] at hr
            have hI : Inv { j with b := some b } true lead items :=
              ⟨rfl, by intro b' hb'; simp at hb'; subst hb'; exact hb, by simp, by intro hi; rw [hl hi, ← he]; rfl⟩
            simpa [leadFrom, itemsFrom, item, hlead] using ih _ _ _ _ hI _ hr
    | reset =>
      simp only [step, Option.bind_some] at hr
      have hI : Inv j.reset ex ex [] := by
        unfold Joiner.reset
        cases hj : j.b with
        | none => exact ⟨h.ex, by simp [hj], by simp, by simp⟩
        | some b =>
          have he := h.ex; rw [hj] at he
          exact ⟨he, by intro b hb; simp at hb; subst hb; simp [body], by simp, by simp⟩
      have hr' : j.reset.opts = j.opts ∧ j.reset.n = j.n := by unfold Joiner.reset; split <;> simp
      have := ih _ _ _ _ hI _ hr
      rw [hr'.1, hr'.2] at this
      simpa [leadFrom, itemsFrom, item] using this

/-- The options and `n` of a new joiner: the last setting of each option wins. -/
theorem newJoiner_inv (os : List Option') : Inv (newJoiner os) false false [] :=
  ⟨rfl, by simp [newJoiner], by simp, by simp⟩

/-- A growth policy for the examples. -/
def exact : Growth := ⟨fun _ n => n, fun _ _ => Nat.le_refl _⟩

/-- C66, exact behaviour for every history: prefix, an extra leading step iff the builder already existed (after a
`Grow` or a `Reset`) when the first surviving item was written, the items separated by one step, suffix. -/
theorem C66_exact (g : Growth) (os : List Option') (cs : List Call) (j : Joiner)
    (h : run g (newJoiner os) cs = some j) :
    let o := os.foldl applyOpt ⟨[], [], []⟩
    j.string = o.pre ++ body o.step (leadFrom false false [] cs) (expectedItems cs) ++ o.suf := by
  obtain ⟨h1, _, h2⟩ := inv_run g cs _ _ _ _ (newJoiner_inv os) j h
  have hE : itemsFrom [] cs = expectedItems cs := rfl
  rw [hE] at h2
  dsimp only
  unfold Joiner.string
  have ho : j.opts = os.foldl applyOpt ⟨[], [], []⟩ := h1
  rw [ho]
  cases hj : j.b with
  | none => rw [h2.none hj]; simp [body, orEmpty, Builder.empty]
  | some b => simp only [orEmpty]; rw [h2.buf b hj, ho]

example : ((run exact (newJoiner [.pre [40], .step [44], .suf [41]]) [.writeString [97], .grow 3, .writeByte 98]).map (·.string)) = some [40, 97, 44, 98, 41] := by decide

/-- A history is "plain" if no `Grow` precedes the first write, and nothing is written after a `Reset` that follows a
write. -/
def Plain : List Call → Prop
  | [] => True
  | .grow _ :: cs => cs.all (fun c => (item c).isNone) = true
  | .reset :: cs => Plain cs
  | c :: cs => ∀ a b, c :: cs = a ++ .reset :: b → b.all (fun c => (item c).isNone) = true

theorem itemsFrom_no_items : ∀ (cs : List Call) (acc : List Bytes),
    cs.all (fun c => (item c).isNone) = true → itemsFrom acc cs = acc ∨ itemsFrom acc cs = [] := by
  intro cs
  induction cs with
  | nil => intro acc _; exact Or.inl rfl
  | cons c cs ih =>
    intro acc h
    simp only [List.all_cons, Bool.and_eq_true] at h
    cases c with
    | grow n => simpa [itemsFrom, item] using ih acc h.2
    | reset =>
      rcases ih [] h.2 with h | h <;> simp [itemsFrom, h]
    | _ => simp [item] at h

theorem leadFrom_false : ∀ (cs : List Call) (ex : Bool) (acc : List Bytes), acc ≠ [] →
    (∀ a b, cs = a ++ .reset :: b → b.all (fun c => (item c).isNone) = true) →
    leadFrom ex false acc cs = false ∨ itemsFrom acc cs = [] := by
  intro cs
  induction cs with
  | nil => intro _ _ _ _; left; rfl
  | cons c cs ih =>
    intro ex acc hacc h
    have h' : ∀ a b, cs = a ++ .reset :: b → b.all (fun c => (item c).isNone) = true :=
      fun a b e => h (c :: a) b (by rw [e]; rfl)
    cases c with
    | reset =>
      right
      have := itemsFrom_no_items cs [] (h [] cs rfl)
      simpa [itemsFrom] using this
    | grow n => simpa [leadFrom, itemsFrom, item, hacc] using ih true acc hacc h'
    | writeRune r => simpa [leadFrom, itemsFrom, item, hacc] using ih true _ (by simp) h'
    | writeString r => simpa [leadFrom, itemsFrom, item, hacc] using ih true _ (by simp) h'
    | writeByte r => simpa [leadFrom, itemsFrom, item, hacc] using ih true _ (by simp) h'
    | write r => simpa [leadFrom, itemsFrom, item, hacc] using ih true _ (by simp) h'

/-- C66, what holds: if no `Grow` precedes the first write and nothing is written after a `Reset` that follows a write,
the text is exactly prefix, items separated by one step, suffix. Missing: the two remaining kinds of history, where an
extra step appears (`C66_grow_refuted`, `C66_reset_refuted`). -/
theorem C66_joined_partial (g : Growth) (os : List Option') (cs : List Call) (hp : Plain cs) (j : Joiner)
    (h : run g (newJoiner os) cs = some j) :
    let o := os.foldl applyOpt ⟨[], [], []⟩
    j.string = o.pre ++ joined o.step (expectedItems cs) ++ o.suf := by
  have he := C66_exact g os cs j h
  dsimp only at he ⊢
  have hi : itemsFrom [] cs = expectedItems cs := rfl
  have key : leadFrom false false [] cs = false ∨ expectedItems cs = [] := by
    rw [← hi]
    clear he h hi
    induction cs with
    | nil => left; rfl
    | cons c cs ih =>
      cases c with
      | grow n =>
        right
        have := itemsFrom_no_items cs [] hp
        simpa [itemsFrom, item] using this
      | reset => simpa [leadFrom, itemsFrom] using ih hp
      | writeRune r => simpa [leadFrom, itemsFrom, item] using leadFrom_false cs true [_] (by simp) (fun a b e => hp (_ :: a) b (by rw [e]; rfl))
      | writeString r => simpa [leadFrom, itemsFrom, item] using leadFrom_false cs true [_] (by simp) (fun a b e => hp (_ :: a) b (by rw [e]; rfl))
      | writeByte r => simpa [leadFrom, itemsFrom, item] using leadFrom_false cs true [_] (by simp) (fun a b e => hp (_ :: a) b (by rw [e]; rfl))
      | write r => simpa [leadFrom, itemsFrom, item] using leadFrom_false cs true [_] (by simp) (fun a b e => hp (_ :: a) b (by rw [e]; rfl))
  rw [he]
  rcases key with key | key
  · rw [key]
    cases expectedItems cs <;> simp [body, joined]
  · rw [key]; simp [body, joined]

/-- non-vacuity of `C66_joined_partial` -/
example : Plain [.reset, .writeString [97], .grow 3, .writeByte 98, .reset] ∧
    (run exact (newJoiner [.all [91] [44] [93]]) [.writeString [97], .writeRune 0x4F60, .writeByte 98]).map Joiner.string =
      some [91, 97, 44, 0xE4, 0xBD, 0xA0, 44, 98, 93] := by
  constructor
  · intro a b h
    match a, h with
    | [], h => simp at h
    | [_], h => simp at h
    | [_, _], h => simp at h
    | [_, _, _], h => simp at h; rw [h.2.2.2]; rfl
    | _ :: _ :: _ :: _ :: a, h => simp at h
  · decide

/-- C66 as stated is false: `Grow` before the first write makes a leading step appear. -/
theorem C66_grow_refuted :
    (run exact (newJoiner [.step [44]]) [.grow 8, .writeString [97]]).map Joiner.string = some [44, 97] := by decide

/-- C66 as stated is false: after `Reset` the next item is preceded by a step. -/
theorem C66_reset_refuted :
    (run exact (newJoiner [.all [91] [44] [93]]) [.writeString [97], .reset, .writeString [98]]).map Joiner.string =
      some [91, 44, 98, 93] := by decide

/-- C66: every history that never calls `Grow` with a negative count runs without panic. -/
theorem C66_no_panic (g : Growth) (j : Joiner) (cs : List Call) (h : ∀ n, Call.grow n ∈ cs → 0 ≤ n) :
    ∃ j', run g j cs = some j' := by
  induction cs generalizing j with
  | nil => exact ⟨j, rfl⟩
  | cons c cs ih =>
    have hstep : ∃ j1, step g j c = some j1 := by
      cases c with
      | grow n =>
        have hn := h n (by simp)
        simp only [step, Joiner.grow, Builder.grow]
        have h0 : ¬ n < 0 := by omega
        simp only [h0, if_false]
        split <;> exact ⟨_, rfl⟩
      | _ => exact ⟨_, rfl⟩
    obtain ⟨j1, e⟩ := hstep
    obtain ⟨j', e'⟩ := ih j1 (fun n hn => h n (by simp [hn]))
    exact ⟨j', by simp [run, e, e']⟩

/-- C66: the count returned by a write is the number of bytes of the item. -/
theorem C66_counts (g : Growth) (j : Joiner) :
    (∀ p, (j.write g p).2 = p.length) ∧ ∀ r, (j.writeRune g r).2 = (encodeRune r).length := ⟨fun _ => rfl, fun _ => rfl⟩

example : ((newJoiner []).writeRune exact 0x4F60).2 = 3 := by decide

/-! ## C67 -/

theorem cap_run (g : Growth) (cs : List Call) : ∀ (j : Joiner), (∀ b, j.b = some b → b.buf.length ≤ b.cap) →
    ∀ j', run g j cs = some j' → ∀ b, j'.b = some b → b.buf.length ≤ b.cap := by
  have happ : ∀ (b : Builder) p, b.buf.length ≤ b.cap → (b.append g p).buf.length ≤ (b.append g p).cap := by
    intro b p h
    unfold Builder.append
    simp only [List.length_append]
    split
    · assumption
    · exact g.enough _ _
  have htry : ∀ j : Joiner, (∀ b, j.b = some b → b.buf.length ≤ b.cap) →
      (j.tryWriteStep g).buf.length ≤ (j.tryWriteStep g).cap := by
    intro j h
    unfold Joiner.tryWriteStep
    cases hj : j.b with
    | none => simp [Builder.empty]
    | some b => exact happ _ _ (h b hj)
  induction cs with
  | nil => intro j h j' hr; simp [run] at hr; subst hr; exact h
  | cons c cs ih =>
    intro j h j' hr
    simp only [run] at hr
    cases c with
    | writeRune r => exact ih _ (fun b hb => by simp [Joiner.writeRune] at hb; subst hb; exact happ _ _ (htry j h)) j' hr
    | writeString r => exact ih _ (fun b hb => by simp [Joiner.write] at hb; subst hb; exact happ _ _ (htry j h)) j' hr
    | writeByte r => exact ih _ (fun b hb => by simp [Joiner.writeByte] at hb; subst hb; exact happ _ _ (htry j h)) j' hr
    | write r => exact ih _ (fun b hb => by simp [Joiner.write] at hb; subst hb; exact happ _ _ (htry j h)) j' hr
    | reset =>
      refine ih _ (fun b hb => ?_) j' hr
      simp only [Joiner.reset] at hb
      split at hb
      · exact h b hb
      · simp at hb; subst hb; simp
    | grow n =>
      simp only [step, Joiner.grow, Builder.grow] at hr
      have hb0 : (orEmpty j.b).buf.length ≤ (orEmpty j.b).cap := by
        cases hj : j.b with
        | none => simp [orEmpty, Builder.empty]
        | some b => exact h b hj
      generalize orEmpty j.b = b0 at hr hb0
      split at hr
      · simp at hr
      · split at hr
        · simp only [Option.map_some, Option.bind_some] at hr
          refine ih _ (fun b hb => ?_) j' hr
          simp at hb; subst hb
          have := g.enough b0.cap (2 * b0.cap + n.toNat)
          simp only; omega
        · simp only [Option.map_some, Option.bind_some] at hr
          refine ih _ (fun b hb => ?_) j' hr
          simp at hb; subst hb; exact hb0

/-- C67: after every history `Len` is the number of bytes of `String` and `Cap` is at least `Len`. -/
theorem C67_len_cap (g : Growth) (os : List Option') (cs : List Call) (j : Joiner)
    (h : run g (newJoiner os) cs = some j) : j.len = j.string.length ∧ j.len ≤ j.cap := by
  obtain ⟨h1, h2, _⟩ := inv_run g cs _ _ _ _ (newJoiner_inv os) j h
  have hc := cap_run g cs _ (by simp [newJoiner]) j h
  have hn : j.n = (j.opts.pre.length : Int) + j.opts.suf.length := by rw [h2, h1]; rfl
  unfold Joiner.len Joiner.cap Joiner.string
  cases hj : j.b with
  | none => simp [hn, orEmpty, Builder.empty]
  | some b =>
    have := hc b hj
    simp only [hn, List.length_append, orEmpty]
    omega

example : ((run exact (newJoiner [.pre [40], .step [44], .suf [41]]) [.writeString [97], .grow 3, .writeByte 98]).map (·.len)) = some 5 := by decide

/-- C67: after `Grow(n)` there is room for `n` more bytes, and the text is unchanged. -/
theorem C67_grow_room (g : Growth) (os : List Option') (cs : List Call) (j j' : Joiner)
    (hr : run g (newJoiner os) cs = some j) (n : Int) (h : j.grow g n = some j') :
    0 ≤ n ∧ j'.len + n ≤ j'.cap ∧ j'.string = j.string := by
  have hc := cap_run g cs _ (by simp [newJoiner]) j hr
  unfold Joiner.grow Builder.grow at h
  unfold Joiner.len Joiner.cap Joiner.string
  have hl : (orEmpty j.b).buf.length ≤ (orEmpty j.b).cap := by
    cases hj : j.b with
    | none => simp [orEmpty, Builder.empty]
    | some b => exact hc b hj
  generalize orEmpty j.b = b0 at h hl
  split at h
  · simp at h
  · split at h
    · simp only [Option.map_some, Option.some.injEq] at h
      subst h
      have := g.enough b0.cap (2 * b0.cap + n.toNat)
      refine ⟨by omega, ?_, rfl⟩
      simp only
      omega
    · simp only [Option.map_some, Option.some.injEq] at h
      subst h
      exact ⟨by omega, by simp only; omega, rfl⟩

example : ((run exact (newJoiner [.pre [40, 40], .suf [41]]) [.grow 10, .writeString [97]]).map
    (fun j => (j.len, j.cap))) = some (4, 13) := by decide

end Verif.XString.Joiner

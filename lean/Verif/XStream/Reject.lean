import Verif.XStream.Props
/-! # C108: what a rejected operation leaves behind

An operation that panics because of its parameter has been called on a stream whose goroutines are running. `SplitSteam`, `Tail` and `Skip` start
a goroutine that reads the rest of that stream before they panic; `Split`, `Limit` and `Copy` do not. -/
namespace Verif.XStream
open Verif.Go Verif.Conc.Net

variable {α K : Type} [DecidableEq K]

/-- A stream that nobody reads. -/
def unread : Comp (Val α) (Ev α K) := ⟨Unit, 1, 0, (), fun _ _ => 0, fun _ _ _ => False, fun _ => True⟩

/-- The last operation of a chain: one with a single result, or `Copy` with its map of buffer sizes. -/
inductive Last (α K N : Type) where
  | op (o : Op α K)
  | copy (params : GMap N Int)

/-- Who reads the stream after the operation has panicked; `none` if it does not panic. The goroutine that runs `drain` (xstream.go:636-639)
does what `Done` does; its return event stands for the end of the goroutine. -/
def Last.rejects {N : Type} : Last α K N → Option (Comp (Val α) (Ev α K))
  | .op (.split n) => if n < 1 then some unread else none                  -- xstream.go:189-191
  | .op (.splitSteam n) => if n < 1 then some doneS.comp else none         -- xstream.go:212-217
  | .op (.tail n) => if n < 0 then some doneS.comp else none               -- xstream.go:256-264
  | .op (.skip n) => if n < 0 then some doneS.comp else none               -- xstream.go:284-289
  | .op (.limit n) => if n < 0 then some unread else none                  -- xstream.go:319-321
  | .op _ => none
  | .copy params => if ∃ p ∈ params, p.2 < 0 then some unread else none    -- xstream.go:601-610: `make` panics, before the goroutine is started

/-- The goroutines that are left when a chain of operations ends with one that panics. -/
def leftBehind {N : Type} (src : Source α) (ops : List (Op α K)) (bad : Last α K N) : Option (Net (Val α) (Ev α K)) := do
  let cs ← buildAll ops
  let reader ← bad.rejects
  pure (pipe (src.comp :: cs ++ [reader]))

/-- The last operation panics. -/
def Last.Panics {N : Type} : Last α K N → Prop
  | .op o => o.Panics
  | .copy params => ∃ p ∈ params, p.2 < 0

/-- The operations that start a goroutine which reads the rest of their input before they panic. -/
def Last.Drains {N : Type} : Last α K N → Prop
  | .op (.splitSteam _) | .op (.tail _) | .op (.skip _) => True
  | _ => False

omit [DecidableEq K] in
theorem rejects_panics {N : Type} (bad : Last α K N) : bad.rejects = none ↔ ¬ bad.Panics := by
  cases bad with
  | op o => cases o <;> simp [Last.rejects, Last.Panics, Op.Panics]
  | copy params =>
    simp only [Last.rejects, Last.Panics]
    by_cases h : ∃ p ∈ params, p.2 < 0 <;> simp only [h, if_true, if_false, not_true, not_false_iff, reduceCtorEq]

theorem rejects_drains {N : Type} {bad : Last α K N} (hp : bad.Panics) (hd : bad.Drains) : bad.rejects = some Term.done.comp := by
  cases bad with
  | op o => cases o <;> simp_all [Last.rejects, Last.Panics, Op.Panics, Last.Drains, Term.comp]
  | copy params => cases hd

omit [DecidableEq K] in
theorem rejects_unread {N : Type} {bad : Last α K N} (hp : bad.Panics) (hd : ¬ bad.Drains) : bad.rejects = some unread := by
  cases bad with
  | op o => cases o <;> simp_all [Last.rejects, Last.Panics, Op.Panics, Last.Drains]
  | copy params => exact if_pos hp

/-- C108: the goroutines that a panicking operation leaves behind are those of a chain of which exactly the last operation panics. -/
theorem C108_left {N : Type} (src : Source α) (ops : List (Op α K)) (bad : Last α K N) :
    (leftBehind src ops bad).isSome ↔ (∀ o ∈ ops, ¬ o.Panics) ∧ bad.Panics := by
  have h := C83_panics src ops .done
  have h2 := rejects_panics bad
  unfold program at h
  rw [Option.map_eq_none_iff] at h
  unfold leftBehind
  cases h1 : buildAll ops with
  | none =>
    obtain ⟨o, ho, hp⟩ := h.1 h1
    simp only [Option.bind_eq_bind, Option.bind_none, Option.isSome_none, Bool.false_eq_true, false_iff, not_and]
    exact fun hc => absurd hp (hc o ho)
  | some cs =>
    have hno : ∀ o ∈ ops, ¬ o.Panics := fun o ho hp => by rw [h.2 ⟨o, ho, hp⟩] at h1; cases h1
    cases h3 : bad.rejects with
    | none => simp [h2.1 h3]
    | some C =>
      have : bad.Panics := by
        by_contra hc
        rw [h2.2 hc] at h3; cases h3
      simp [this]
      exact hno

example : (leftBehind (N := String) (.gen [.atom 1]) [.limit 3] (.op (.skip (-1) : Op Nat Nat))).isSome := rfl

/-- C108 (SplitSteam, Tail, Skip): the goroutines of the stream on which the rejected operation was called all end, whatever the chain, its
functions and the schedule: none of them can be stuck, there is no infinite execution, and the end is always reachable. -/
theorem C108_drained_partial {M : Type} {src : Source α} {ops : List (Op α K)} {bad : Last α K M} {N : Net (Val α) (Ev α K)}
    (h : leftBehind src ops bad = some N) (hd : bad.Drains) (hv : ∀ o ∈ ops, o.Valid) (hf : FewValues N) :
    (∀ m, NReach N m → (∀ m', ¬ NStep m m') → ∀ i < N.n, (N.comp i).done (m.st i)) ∧
    (∀ e : Nat → NState N, NReach N (e 0) → ¬ ∀ k, NStep (e k) (e (k + 1))) ∧
    (∀ m, NReach N m → ∃ m', Relation.ReflTransGen NStep m m' ∧ ∀ i < N.n, (N.comp i).done (m'.st i)) := by
  have hp := ((C108_left src ops bad).1 (by rw [h]; rfl)).2
  have : program src ops .done = some N := by
    unfold leftBehind at h
    rw [rejects_drains hp hd] at h
    unfold program
    cases h1 : buildAll ops with
    | none => rw [h1] at h; cases h
    | some cs => rw [h1] at h; exact h
  exact C45_no_deadlock (program_is this hv).1 hf

/-- The network of a generator of two values, `Limit(3)` and `Skip(-1)`. -/
def rejectNet : Net (Val Nat) (Ev Nat Nat) := pipe [(Source.gen [.atom 1, .atom 2]).comp, (limitS 3).comp, doneS.comp]

theorem reject_left : leftBehind (N := String) (.gen [.atom 1, .atom 2]) [.limit 3] (.op (.skip (-1))) = some rejectNet := rfl

example := C108_drained_partial reject_left trivial (by simp [Op.Valid])
  (program_few (b := 1) (src := .gen [.atom 1, .atom 2]) (ops := [.limit 3]) (term := .done) rfl (by simp [Op.Valid]) (by omega)
    (by simp [Op.Emits]) (by decide))

omit [DecidableEq K] in
/-- The source of an unread stream fills the buffer of its channel and stays in its loop. -/
theorem unread_source (cap : Nat) (items : List (Val α)) (hlt : cap < items.length)
    {m : NState (pipe [(fromS cap items).comp, (unread : Comp (Val α) (Ev α K))])} (hr : NReach _ m) :
    ∃ rest, m.st 0 = SendSt.loop rest ∧ m.buf 0 0 ++ rest = items ∧ (m.buf 0 0).length ≤ cap := by
  have step0 : ∀ {m : NState (pipe [(fromS cap items).comp, (unread : Comp (Val α) (Ev α K))])} {i : Nat} {l : Lbl (Val α) (Ev α K)} {s' : _},
      i < 2 → ((pipe [(fromS cap items).comp, (unread : Comp (Val α) (Ev α K))]).comp i).step (m.st i) l s' → i = 0 := by
    intro m i l s' hi hst
    match i, hi with
    | 0, _ => rfl
    | 1, _ => exact (hst : False).elim
  induction hr with
  | init => exact ⟨items, rfl, rfl, Nat.zero_le _⟩
  | @step m m' hr hs ih =>
    obtain ⟨rest, h1, h2, h3⟩ := ih
    have hne : ∃ v r, rest = v :: r := by
      cases rest with
      | nil => rw [List.append_nil] at h2; rw [h2] at h3; omega
      | cons v r => exact ⟨v, r, rfl⟩
    obtain ⟨v, r, rfl⟩ := hne
    have only : ∀ {l s'}, SeqStep (SendSt.next (K := K)) (m.st 0) l s' → l = .send 0 v ∧ s' = SendSt.loop r := by
      intro l s' hst
      rw [h1] at hst
      cases hst with
      | send e => simp only [SendSt.next, Cmd.send.injEq] at e; obtain ⟨rfl, rfl, rfl⟩ := e; exact ⟨rfl, rfl⟩
      | _ => simp_all [SendSt.next]
    cases hs with
    | log j e s' _ hj hst =>
      obtain rfl := step0 hj hst
      exact absurd (only hst).1 (by simp)
    | tau j s' _ hj hst =>
      obtain rfl := step0 hj hst
      exact absurd (only hst).1 (by simp)
    | send j q' w s' _ hj hst _ hcap =>
      obtain rfl := step0 hj hst
      obtain ⟨e1, e2⟩ := only hst
      simp only [Lbl.send.injEq] at e1
      obtain ⟨rfl, rfl⟩ := e1
      have hcap : (m.buf 0 0).length < cap := hcap
      refine ⟨r, ?_, ?_, ?_⟩
      · simp only [NState.move]; rw [Function.update_self]; exact e2
      · simp [upd2]; exact h2
      · simp [upd2]; omega
    | meet j q' w s' s'' _ hj hst _ _ _ _ hst' =>
      obtain rfl := step0 hj hst
      exact (hst' : False).elim
    | sendPanic j q' w s' _ hj hst _ => exact ⟨_, h1, h2, h3⟩
    | close j q' s' _ hj hst _ =>
      obtain rfl := step0 hj hst
      exact absurd (only hst).1 (by simp)
    | closePanic j q' s' _ hj hst _ => exact ⟨_, h1, h2, h3⟩
    | recv j p w vs s' _ hj hst _ =>
      obtain rfl := step0 hj hst
      exact absurd (only hst).1 (by simp)
    | eof j p s' _ hj hst _ _ =>
      obtain rfl := step0 hj hst
      exact absurd (only hst).1 (by simp)

/-- C108: "a rejected operation does not leak the goroutines of the stream it was called on" is false of Split, Limit and Copy: if the stream
comes from a goroutine which sends more values than its channel can hold, that goroutine never ends, whatever the schedule. -/
theorem C108_leak_refuted {M : Type} {bad : Last α K M} (hp : bad.Panics) (hd : ¬ bad.Drains) (cap : Nat) (items : List (Val α))
    (hlt : cap < items.length) : ∃ N, leftBehind (.chan cap items) [] bad = some N ∧
      ∀ m, NReach N m → ¬ (N.comp 0).done (m.st 0) := by
  refine ⟨pipe [(fromS cap items).comp, unread], ?_, ?_⟩
  · unfold leftBehind
    rw [rejects_unread hp hd]
    rfl
  · intro m hr hdone
    obtain ⟨rest, h1, h2, h3⟩ := unread_source cap items hlt hr
    have hdone : SendSt.next (K := K) (m.st 0) = .done := hdone
    rw [h1] at hdone
    cases rest <;> cases hdone

example := C108_leak_refuted (M := String) (bad := .op (.split 0 : Op Nat Nat)) (by simp [Last.Panics, Op.Panics]) id 0 [.atom 1] (by simp)

example := C108_leak_refuted (α := Nat) (K := Nat) (bad := .copy [("a", -1)]) ⟨("a", -1), by simp, by simp⟩ id 1 [.atom 1, .atom 2] (by simp)

end Verif.XStream

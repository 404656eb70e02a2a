import Verif.XStream.Stages
/-! # Walk is a correct component -/
namespace Verif.XStream
open Verif.Go Verif.Conc.Net

variable {α K A : Type}

/-! ## Interleavings -/

/-- Starting with the lists `ls`, the elements `out` have been taken, and `rs` remain (some empty lists may have been dropped). -/
inductive Taken : List (List A) → List A → List (List A) → Prop where
  | refl (ls : List (List A)) : Taken ls [] ls
  | take {ls : List (List A)} {out : List A} (l₁ : List (List A)) (x : A) (r : List A) (l₂ : List (List A)) :
      Taken ls out (l₁ ++ (x :: r) :: l₂) → Taken ls (out ++ [x]) (l₁ ++ r :: l₂)
  | drop {ls : List (List A)} {out : List A} (l₁ l₂ : List (List A)) : Taken ls out (l₁ ++ [] :: l₂) → Taken ls out (l₁ ++ l₂)

theorem Taken.add {ls : List (List A)} {out : List A} {rs : List (List A)} (h : Taken ls out rs) (l : List A) :
    Taken (ls ++ [l]) out (rs ++ [l]) := by
  induction h with
  | refl => exact .refl _
  | take l₁ x r l₂ _ ih =>
    have := Taken.take l₁ x r (l₂ ++ [l]) (by simpa using ih)
    simpa using this
  | drop l₁ l₂ _ ih =>
    have := Taken.drop l₁ (l₂ ++ [l]) (by simpa using ih)
    simpa using this

theorem Interleaving.insert_nil {ls : List (List A)} {out : List A} (h : Interleaving ls out) : ∀ (l₁ l₂ : List (List A)), ls = l₁ ++ l₂ →
    Interleaving (l₁ ++ [] :: l₂) out := by
  induction h with
  | nil ls hl =>
    rintro l₁ l₂ rfl
    refine .nil _ ?_
    intro l h
    simp at h
    rcases h with h | h | h
    · exact hl l (by simp [h])
    · exact h
    · exact hl l (by simp [h])
  | cons a x r b out _ ih =>
    intro l₁ l₂ he
    rcases List.append_eq_append_iff.mp he with ⟨c, h1, h2⟩ | ⟨c, h1, h2⟩
    · -- `a` is the longer prefix or `l₁` goes beyond it
      cases c with
      | nil =>
        simp at h1 h2
        subst h1; subst h2
        have := ih l₁ (r :: b) rfl
        exact Interleaving.cons (l₁ ++ [[]]) x r b out (by simpa using this) |> (by simpa using ·)
      | cons d c =>
        simp only [List.cons_append, List.cons.injEq] at h2
        obtain ⟨h2, h3⟩ := h2
        subst h1; subst h3; subst h2
        have := ih (a ++ r :: c) l₂ (by simp)
        have := Interleaving.cons a x r (c ++ [] :: l₂) out (by simpa using this)
        simpa using this
    · subst h1; subst h2
      have := ih l₁ (c ++ r :: b) (by simp)
      have := Interleaving.cons (l₁ ++ [] :: c) x r b out (by simpa using this)
      simpa using this

theorem Taken.interleaving {ls : List (List A)} {out : List A} {rs : List (List A)} (h : Taken ls out rs) : ∀ (rest : List A),
    Interleaving rs rest → Interleaving ls (out ++ rest) := by
  induction h with
  | refl => intro rest h; simpa using h
  | take l₁ x r l₂ _ ih => intro rest h; simpa using ih (x :: rest) (.cons l₁ x r l₂ rest h)
  | drop l₁ l₂ _ ih => intro rest h; exact ih rest (h.insert_nil l₁ l₂ rfl)

theorem Taken.done {ls : List (List A)} {out : List A} (h : Taken ls out []) : Interleaving ls out := by
  simpa using h.interleaving [] (.nil [] (by simp))

/-- An interleaving has the elements of the lists. -/
theorem Interleaving.perm {ls : List (List A)} {out : List A} (h : Interleaving ls out) : out.Perm ls.flatten := by
  induction h with
  | nil ls hl =>
    have : ls.flatten = [] := by simpa using hl
    rw [this]
  | cons l₁ x r l₂ out _ ih =>
    simp only [List.flatten_append, List.flatten_cons, List.cons_append] at ih ⊢
    exact (ih.cons x).trans (List.perm_middle).symm

/-- Every one of the lists is a subsequence of an interleaving. -/
theorem Interleaving.sublist {ls : List (List A)} {out : List A} (h : Interleaving ls out) : ∀ l ∈ ls, l.Sublist out := by
  induction h with
  | nil ls hl => intro l h; rw [hl l h]
  | cons l₁ x r l₂ out _ ih =>
    intro l h
    simp at h
    rcases h with h | rfl | h
    · exact (ih l (by simp [h])).cons _
    · exact (ih r (by simp)).cons_cons x
    · exact (ih l (by simp [h])).cons _

/-! ## Events -/

theorem calls_append (l l' : List (Ev α K)) : calls (l ++ l') = calls l ++ calls l' := by
  induction l with
  | nil => rfl
  | cons e l ih => cases e <;> simp [calls, ih]

theorem endings_append (l l' : List (Ev α K)) : endings (l ++ l') = endings l ++ endings l' := by
  induction l with
  | nil => rfl
  | cons e l ih => cases e <;> simp [endings, ih]

/-! ## The invariant -/

section
variable (size : Nat) (f : Val α → Body α)

/-- What the worker still has to send. -/
def Worker.rest : Worker α → List (Val α)
  | .start v => (f v).sends
  | .run _ rest => rest
  | _ => []

/-- The element whose call has not begun. -/
def Worker.uncalled : Worker α → List (Val α)
  | .start v => [v]
  | _ => []

/-- The element whose call has not ended, and how it will end. -/
def Worker.unended : Worker α → List (Val α × Bool)
  | .start v | .run v _ => [(v, (f v).panics)]
  | _ => []

/-- The events still to come. -/
def Worker.events : Worker α → List (Ev α K)
  | .start v => [.call v, (f v).ending v]
  | .run v _ => [(f v).ending v]
  | _ => []

/-- Not yet counted off the wait group. -/
def Worker.waits : Worker α → Nat
  | .exiting => 0
  | _ => 1

/-- Proof only: part of a measure; models no code. -/
def Worker.weight : Worker α → Nat
  | .start v => (f v).sends.length + 4
  | .run _ rest => rest.length + 3
  | .returned => 2
  | .exiting => 1

/-- The received element for which no worker has been started. -/
def WalkMain.elem : WalkMain α → List (Val α)
  | .spawn v => [v]
  | _ => []

/-- The place in `pool` that the dispatcher holds. -/
def WalkMain.holds : WalkMain α → Nat
  | .recv | .spawn _ | .release => 1
  | _ => 0

/-- Proof only: part of a measure; models no code. -/
def WalkMain.weight : WalkMain α → Nat
  | .acquire => 5
  | .recv => 4
  | .spawn v => (f v).sends.length + 10
  | .release => 3
  | .wait => 2
  | .closing => 1
  | .done => 0

/-- Proof only: the loop of `Walk` has ended. -/
def WalkMain.ended : WalkMain α → Bool
  | .acquire | .recv | .spawn _ => false
  | _ => true

/-- Proof only: the goroutine of `Walk` has ended. -/
def WalkMain.isDone : WalkMain α → Bool
  | .done => true
  | _ => false

/-- Proof only: part of an invariant or simulation; models no code. -/
structure WalkInv (s : WalkSt α) (h : Hist (Val α) (Ev α K)) : Prop where
  pool : s.pool = s.workers.length + s.main.holds
  poolLe : s.pool ≤ size
  wg : s.wg = (s.workers.map Worker.waits).sum
  eof : h.eof 0 = s.main.ended
  closed : h.closed 0 = s.main.isDone
  wait : s.main = .closing ∨ s.main = .done → s.wg = 0
  taken : Taken ((h.ins 0).map fun v => (f v).sends) (h.outs 0) (s.workers.map (Worker.rest f) ++ s.main.elem.map fun v => (f v).sends)
  called : (calls h.log ++ s.workers.flatMap Worker.uncalled ++ s.main.elem).Perm (h.ins 0)
  ended : (endings h.log ++ s.workers.flatMap (Worker.unended f) ++ s.main.elem.map fun v => (v, (f v).panics)).Perm
    ((h.ins 0).map fun v => (v, (f v).panics))
  order : size = 1 → h.outs 0 ++ s.workers.flatMap (Worker.rest f) ++ s.main.elem.flatMap (fun v => (f v).sends) =
    (h.ins 0).flatMap fun v => (f v).sends
  orderLog : size = 1 → h.log ++ s.workers.flatMap (Worker.events f) ++ s.main.elem.flatMap (fun v => [.call v, (f v).ending v]) =
    (h.ins 0).flatMap fun v => [.call v, (f v).ending v]
end

variable {size : Nat} {f : Val α → Body α}

theorem walk_inv_init : WalkInv size f ⟨.acquire, [], 0, 0⟩ (Hist.empty : Hist (Val α) (Ev α K)) := by
  constructor <;> simp [WalkMain.holds, WalkMain.ended, WalkMain.isDone, WalkMain.elem, Hist.empty, calls, endings]
  exact .refl _

theorem single {B : Type} {l₁ l₂ : List B} {w : B} (h : (l₁ ++ w :: l₂).length ≤ 1) : l₁ = [] ∧ l₂ = [] := by
  simp at h
  exact ⟨List.length_eq_zero_iff.mp (by omega), List.length_eq_zero_iff.mp (by omega)⟩

theorem walk_inv_step {s : WalkSt α} {h : Hist (Val α) (Ev α K)} {l : Lbl (Val α) (Ev α K)} {s' : WalkSt α} (hi : WalkInv size f s h)
    (hs : WalkStep size f s l s') : WalkInv size f s' (h.add l) := by
  obtain ⟨main, workers, pool, wg⟩ := s
  obtain ⟨a1, a2, a3, a4, a5, a6, a7, a8, a9, a10, a11⟩ := hi
  cases hs with
  | acquire e hp =>
    dsimp only at *; subst e
    constructor <;> simp_all [WalkMain.holds, WalkMain.ended, WalkMain.isDone, WalkMain.elem, Hist.add] <;> omega
  | recv v e =>
    dsimp only at *; subst e
    constructor <;> try simp_all [WalkMain.holds, WalkMain.ended, WalkMain.isDone, WalkMain.elem, Hist.add]
    · simpa using a7.add (f v).sends
    · rw [← List.append_assoc]; exact a8.append_right [v]
    · rw [← List.append_assoc]; exact a9.append_right [(v, (f v).panics)]
  | eof e =>
    dsimp only at *; subst e
    constructor <;> simp_all [WalkMain.holds, WalkMain.ended, WalkMain.isDone, WalkMain.elem, Hist.add]
  | spawn v e =>
    dsimp only at *; subst e
    constructor <;> simp_all [WalkMain.holds, WalkMain.ended, WalkMain.isDone, WalkMain.elem, Hist.add, Worker.waits, Worker.rest, Worker.uncalled,
      Worker.unended, Worker.events]
  | release e hp =>
    dsimp only at *; subst e
    constructor <;> simp_all [WalkMain.holds, WalkMain.ended, WalkMain.isDone, WalkMain.elem, Hist.add]
    omega
  | wait e hw =>
    dsimp only at *; subst e
    simp only [WalkMain.holds, WalkMain.elem, List.map_nil, List.append_nil, List.flatMap_nil] at a1 a4 a5 a7 a8 a9 a10 a11
    exact ⟨a1, a2, a3, a4, a5, fun _ => hw, by simpa [WalkMain.elem, Hist.add] using a7, by simpa [WalkMain.elem, Hist.add] using a8,
      by simpa [WalkMain.elem, Hist.add] using a9, by simpa [WalkMain.elem, Hist.add] using a10, by simpa [WalkMain.elem, Hist.add] using a11⟩
  | close e =>
    dsimp only at *; subst e
    simp only [WalkMain.holds, WalkMain.elem, List.map_nil, List.append_nil, List.flatMap_nil] at a1 a4 a5 a7 a8 a9 a10 a11
    exact ⟨a1, a2, a3, a4, by simp [Hist.add, upd, WalkMain.isDone], fun _ => a6 (.inl rfl), by simpa [WalkMain.elem, Hist.add] using a7, by simpa [WalkMain.elem, Hist.add] using a8,
      by simpa [WalkMain.elem, Hist.add] using a9, by simpa [WalkMain.elem, Hist.add] using a10, by simpa [WalkMain.elem, Hist.add] using a11⟩
  | start v l₁ l₂ e =>
    dsimp only at *; subst e
    have hsz : size = 1 → l₁ = [] ∧ l₂ = [] := fun h1 => single (w := Worker.start v) (by omega)
    constructor <;> try simp_all [Hist.add, Worker.waits, Worker.rest, Worker.uncalled, Worker.unended, Worker.events, calls_append, endings_append,
      calls, endings]
    · refine List.Perm.trans ?_ a8
      apply List.Perm.append_left
      exact (List.perm_middle (l₁ := l₁.flatMap Worker.uncalled) (a := v)).symm
  | send v x rest l₁ l₂ e =>
    dsimp only at *; subst e
    have hsz : size = 1 → l₁ = [] ∧ l₂ = [] := fun h1 => single (w := Worker.run v (x :: rest)) (by omega)
    constructor <;> try simp_all [Hist.add, Worker.waits, Worker.rest, Worker.uncalled, Worker.unended, Worker.events]
    · exact Taken.take _ x rest _ a7
  | finish v l₁ l₂ e hp =>
    dsimp only at *; subst e
    have hsz : size = 1 → l₁ = [] ∧ l₂ = [] := fun h1 => single (w := Worker.run v []) (by omega)
    constructor <;> try simp_all [Hist.add, Worker.waits, Worker.rest, Worker.uncalled, Worker.unended, Worker.events, calls_append, endings_append,
      calls, endings, Body.ending]
    · refine List.Perm.trans ?_ a9
      apply List.Perm.append_left
      exact (List.perm_middle (l₁ := l₁.flatMap (Worker.unended f)) (a := (v, false))).symm
  | panic v l₁ l₂ e hp =>
    dsimp only at *; subst e
    have hsz : size = 1 → l₁ = [] ∧ l₂ = [] := fun h1 => single (w := Worker.run v []) (by omega)
    constructor <;> try simp_all [Hist.add, Worker.waits, Worker.rest, Worker.uncalled, Worker.unended, Worker.events, calls_append, endings_append,
      calls, endings, Body.ending]
    · refine List.Perm.trans ?_ a9
      apply List.Perm.append_left
      exact (List.perm_middle (l₁ := l₁.flatMap (Worker.unended f)) (a := (v, true))).symm
  | wgDone l₁ l₂ e =>
    dsimp only at *; subst e
    constructor <;> simp_all [Hist.add, Worker.waits, Worker.rest, Worker.uncalled, Worker.unended, Worker.events]
    · omega
  | exit l₁ l₂ e hp =>
    dsimp only at *; subst e
    constructor <;> try simp_all [Hist.add, Worker.waits, Worker.rest, Worker.uncalled, Worker.unended, Worker.events]
    · omega
    · omega
    · exact Taken.drop _ _ a7

theorem walk_inv {s : (walkC size f : Comp (Val α) (Ev α K)).σ} {h : Hist (Val α) (Ev α K)} (hr : CReach (walkC size f) s h) : WalkInv size f s h := by
  induction hr with
  | init => exact walk_inv_init
  | step _ hs ih => exact walk_inv_step ih hs

theorem worker_active {s : WalkSt α} {h : Hist (Val α) (Ev α K)} (hi : WalkInv size f s h) (hw : s.workers ≠ []) :
    Active (walkC size f : Comp (Val α) (Ev α K)) s := by
  obtain ⟨w, ws, e⟩ := List.exists_cons_of_ne_nil hw
  have hp : 0 < s.pool := by rw [hi.pool, e]; simp; omega
  cases w with
  | start v => exact ⟨_, _, .start s v [] ws e, rfl⟩
  | run v rest =>
    cases rest with
    | nil =>
      cases hp : (f v).panics with
      | false => exact ⟨_, _, .finish s v [] ws e hp, rfl⟩
      | true => exact ⟨_, _, .panic s v [] ws e hp, rfl⟩
    | cons x rest => exact ⟨_, _, .send s v x rest [] ws e, rfl⟩
  | returned => exact ⟨_, _, .wgDone s [] ws e, rfl⟩
  | exiting => exact ⟨_, _, .exit s [] ws e hp, rfl⟩

/-- Proof only: part of a measure; models no code. -/
def walkW (f : Val α → Body α) (s : WalkSt α) : Nat := s.main.weight f + (s.workers.map (Worker.weight f)).sum

theorem walk_good (hsize : 0 < size) : Good lim (walkC size f : Comp (Val α) (Ev α K)) (lift (WalkSpec size f)) := by
  refine ⟨?_, ?_, ?_, ?_, walkW f, fun _ v => (f v).sends.length + 6, ?_⟩
  · intro s h l s' hr _ hs
    have hi := walk_inv hr
    have running : ∀ (w : Worker α) (l₁ l₂ : List (Worker α)), s.workers = l₁ ++ w :: l₂ → w.waits = 1 → h.closed 0 = false := by
      intro w l₁ l₂ e hw
      rw [hi.closed]
      cases hm : s.main <;> simp [WalkMain.isDone]
      have h1 := hi.wait (.inr hm)
      have h2 := hi.wg
      rw [e] at h2
      simp [hw] at h2
      omega
    cases hs with
    | recv v e => exact ⟨by simp [walkC], by rw [hi.eof, e]; rfl⟩
    | eof e => exact ⟨by simp [walkC], by rw [hi.eof, e]; rfl⟩
    | close e => exact ⟨by simp [walkC], by rw [hi.closed, e]; rfl⟩
    | send v x rest l₁ l₂ e => exact ⟨by simp [walkC], running _ l₁ l₂ e rfl⟩
    | _ => trivial
  · rintro s h hr _ ⟨hm, hw⟩
    have hi := walk_inv hr
    have h7 := hi.taken
    have h8 := hi.called
    have h9 := hi.ended
    have h10 := hi.order
    have h11 := hi.orderLog
    rw [hm, hw] at h7 h8 h9 h10 h11
    simp [WalkMain.elem] at h7 h8 h9 h10 h11
    refine ⟨?_, ?_, h8, h9, h7.done, fun e => ⟨h10 e, h11 e⟩⟩
    · intro p hp
      have : p = 0 := by simpa [walkC] using hp
      subst this
      rw [hi.eof, hm]; rfl
    · intro p hp
      have : p = 0 := by simpa [walkC] using hp
      subst this
      rw [hi.closed, hm]; rfl
  · intro s h hr _ hnd
    have hi := walk_inv hr
    by_cases hw : s.workers = []
    · cases hm : s.main with
      | acquire =>
        refine .inl ⟨_, _, .acquire s hm ?_, rfl⟩
        rw [hi.pool, hw, hm]; simpa [WalkMain.holds] using hsize
      | recv =>
        exact .inr ⟨0, by simp [walkC], by rw [hi.eof, hm]; rfl, fun v => ⟨_, .recv s v hm⟩, ⟨_, .eof s hm⟩⟩
      | spawn v => exact .inl ⟨_, _, .spawn s v hm, rfl⟩
      | release => exact .inl ⟨_, _, .release s hm (by rw [hi.pool, hm]; simp [WalkMain.holds]), rfl⟩
      | wait => exact .inl ⟨_, _, .wait s hm (by rw [hi.wg, hw]; rfl), rfl⟩
      | closing => exact .inl ⟨_, _, .close s hm, rfl⟩
      | done => exact absurd ⟨hm, hw⟩ hnd
    · exact .inl (worker_active hi hw)
  · intro s h hr _ p hp heof
    have hi := walk_inv hr
    have : p = 0 := by simpa [walkC] using hp
    subst this
    by_cases hw : s.workers = []
    · rw [hi.eof] at heof
      cases hm : s.main with
      | acquire =>
        refine .inr ⟨_, _, .acquire s hm ?_, rfl⟩
        rw [hi.pool, hw, hm]; simpa [WalkMain.holds] using hsize
      | recv => exact .inl ⟨fun v => ⟨_, .recv s v hm⟩, ⟨_, .eof s hm⟩⟩
      | spawn v => exact .inr ⟨_, _, .spawn s v hm, rfl⟩
      | _ => rw [hm] at heof; simp [WalkMain.ended] at heof
    · exact .inr (worker_active hi hw)
  · intro s h l s' hr _ hs
    obtain ⟨main, workers, pool, wg⟩ := s
    cases hs with
    | recv v e => dsimp only at e; subst e; simp [walkW, WalkMain.weight]; omega
    | acquire e _ => dsimp only at e; subst e; simp [walkW, WalkMain.weight]
    | eof e => dsimp only at e; subst e; simp [walkW, WalkMain.weight]
    | spawn v e => dsimp only at e; subst e; simp [walkW, WalkMain.weight, Worker.weight]; omega
    | release e _ => dsimp only at e; subst e; simp [walkW, WalkMain.weight]
    | wait e _ => dsimp only at e; subst e; simp [walkW, WalkMain.weight]
    | close e => dsimp only at e; subst e; simp [walkW, WalkMain.weight]
    | start v l₁ l₂ e => dsimp only at e; subst e; simp [walkW, Worker.weight]
    | send v x rest l₁ l₂ e => dsimp only at e; subst e; simp [walkW, Worker.weight]
    | finish v l₁ l₂ e _ => dsimp only at e; subst e; simp [walkW, Worker.weight]
    | panic v l₁ l₂ e _ => dsimp only at e; subst e; simp [walkW, Worker.weight]
    | wgDone l₁ l₂ e => dsimp only at e; subst e; simp [walkW, Worker.weight]
    | exit l₁ l₂ e _ => dsimp only at e; subst e; simp [walkW, Worker.weight]

theorem Taken.length {ls : List (List A)} {out : List A} {rs : List (List A)} (h : Taken ls out rs) :
    out.length + rs.flatten.length = ls.flatten.length := by
  induction h with
  | refl => simp
  | take l₁ x r l₂ _ ih => rw [← ih]; simp; omega
  | drop l₁ l₂ _ ih => rw [← ih]; simp

theorem flatMap_length_le {b : Nat} (l : List (Val α)) (hb : ∀ v, (f v).sends.length ≤ b) : ((l.map fun v => (f v).sends).flatten).length ≤ b * l.length := by
  induction l with
  | nil => simp
  | cons x l ih =>
    have := hb x
    simp only [List.map_cons, List.flatten_cons, List.length_append, List.length_cons, Nat.mul_add]
    omega

theorem walk_fine (hsize : 0 < size) {b : Nat} (hb : ∀ v, (f v).sends.length ≤ b) :
    Fine lim (walkC size f : Comp (Val α) (Ev α K)) (lift (WalkSpec size f)) (fun n => b * n) := by
  refine ⟨walk_good hsize, fun a b' hab => Nat.mul_le_mul_left _ hab, ?_⟩
  intro s h hr _ q hq
  have : q = 0 := by simpa [walkC] using hq
  subst this
  have h1 := (walk_inv hr).taken.length
  have h2 := flatMap_length_le (h.ins 0) hb
  simp [walkC]
  omega

/-- At every moment at most `size` calls of the user function are running. -/
theorem walk_running {s : (walkC size f : Comp (Val α) (Ev α K)).σ} {h : Hist (Val α) (Ev α K)} (hr : CReach (walkC size f) s h) :
    (calls h.log).length ≤ (endings h.log).length + size := by
  have hi := walk_inv hr
  have h1 := hi.called.length_eq
  have h2 := hi.ended.length_eq
  have h3 : ∀ ws : List (Worker α), (ws.flatMap (Worker.unended f)).length ≤ (ws.flatMap Worker.uncalled).length + ws.length := by
    intro ws
    induction ws with
    | nil => simp
    | cons w ws ih => cases w <;> simp [Worker.unended, Worker.uncalled] at ih ⊢ <;> omega
  have h4 := h3 s.workers
  have h5 := hi.pool
  have h6 := hi.poolLe
  simp only [List.length_append, List.length_map] at h1 h2
  omega

end Verif.XStream

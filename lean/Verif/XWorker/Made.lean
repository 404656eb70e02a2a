import Verif.XWorker.DeferNest
/-!
# Which calls of `Run` the functions and `deferFunc`s in a `Worker` make (C125, C144)

In the models of `Nest.lean` and `DeferNest.lean` the calls made by a function (or `deferFunc`) are the ones its code says, in this order, each once and
with the function it says.
-/
namespace Verif.XWorker
open Verif.Go Verif.XTask

variable {E V : Type}

/-! ## Specification -/

/-- The functions given to the calls of `Run` in the code, in the order of the calls. -/
def Code.given : Code → List Code
  | .ret => []
  | .run f k => f :: k.given
  | .wait k => k.given

/-! ## Proofs -/

/-- Proof only: the calls made so far and the ones to come are the calls in the code; they are different calls, and later ones than the call itself. -/
structure MInv (n : Nest E V) : Prop where
  given : ∀ i, (n.kids i).reverse.map n.fn ++ (n.code i).given = (n.fn i).given
  nodup : ∀ i, (n.kids i).Nodup
  apart : ∀ i i', ∀ j ∈ n.kids i, j ∈ n.kids i' → i = i'
  kids : ∀ i, ∀ j ∈ n.kids i, i < j ∧ j < n.w.jobs.length

theorem MInv.init (w : Worker E V) : MInv (⟨w, fun _ => .ret, fun _ => .ret, fun _ => []⟩ : Nest E V) :=
  ⟨fun _ => rfl, by simp, by simp, by simp⟩

theorem MInv.keep {n : Nest E V} (h : MInv n) {w' : Worker E V} (hl : w'.jobs.length = n.w.jobs.length) : MInv { n with w := w' } :=
  ⟨h.given, h.nodup, h.apart, by simpa [hl] using h.kids⟩

theorem map_upd {l : List Nat} {fn : Nat → Code} {a : Nat} {f : Code} (h : ∀ j ∈ l, j < a) : l.reverse.map (upd fn a f) = l.reverse.map fn :=
  List.map_congr_left fun j hj => upd_ne _ _ (by have := h j (List.mem_reverse.mp hj); omega)

theorem MInv.call {n : Nest E V} (h : MInv n) (f : Code) (ctx : Option E) : MInv (n.start f ctx) where
  given := by
    intro i
    by_cases e : i = n.w.jobs.length
    · subst e; simp [Nest.start, upd]
    · simp only [Nest.start, upd_ne _ _ e]
      rw [map_upd fun j hj => (h.kids i j hj).2]
      exact h.given i
  nodup := by
    intro i
    simp only [Nest.start, upd]
    split
    · simp
    · exact h.nodup i
  apart := by
    intro i i' j h1 h2
    simp only [Nest.start, upd] at h1 h2
    split at h1 <;> split at h2
    · omega
    · simp at h1
    · simp at h2
    · exact h.apart i i' j h1 h2
  kids := by
    intro i j hj
    simp only [Nest.start, upd] at hj
    split at hj
    · simp at hj
    · have := h.kids i j hj
      simp only [Nest.start, List.length_append, List.length_singleton]
      omega

theorem MInv.run {n : Nest E V} (h : MInv n) {i : Nat} (hi : i < n.w.jobs.length) {f k : Code} (hk : n.code i = .run f k) (ctx : Option E) :
    MInv ({ n with code := upd n.code i k, kids := upd n.kids i (n.w.jobs.length :: n.kids i) }.start f ctx) where
  given := by
    intro x
    by_cases e : x = n.w.jobs.length
    · subst e; simp [Nest.start, upd]
    · simp only [Nest.start, upd_ne _ _ e]
      have := h.given x
      by_cases e' : x = i
      · subst e'
        rw [hk] at this
        simp only [upd, if_true, List.reverse_cons, List.map_append, List.map_cons, List.map_nil, List.append_assoc, List.singleton_append]
        rw [← this]
        congr 1
        exact map_upd fun j hj => (h.kids x j hj).2
      · simp only [upd_ne _ _ e']
        rw [map_upd fun j hj => (h.kids x j hj).2]
        exact this
  nodup := by
    intro x
    simp only [Nest.start, upd]
    split
    · simp
    · split
      · exact List.nodup_cons.mpr ⟨fun hm => by have := (h.kids i _ hm).2; omega, h.nodup i⟩
      · exact h.nodup x
  apart := by
    have old : ∀ x, n.w.jobs.length ∉ n.kids x := fun x hm => by have := (h.kids x _ hm).2; omega
    intro x y j h1 h2
    simp only [Nest.start, upd] at h1 h2
    split at h1
    · simp at h1
    · split at h2
      · simp at h2
      · split at h1 <;> split at h2
        · omega
        · rename_i e1 e2
          rcases List.mem_cons.mp h1 with rfl | h1
          · exact absurd h2 (old _)
          · rw [e1]; exact h.apart i y j h1 h2
        · rename_i e1 e2
          rcases List.mem_cons.mp h2 with rfl | h2
          · exact absurd h1 (old _)
          · rw [e2]; exact h.apart x i j h1 h2
        · exact h.apart x y j h1 h2
  kids := by
    intro x j hj
    simp only [Nest.start, List.length_append, List.length_singleton]
    simp only [Nest.start, upd] at hj
    split at hj
    · simp at hj
    · split at hj
      · rename_i e
        rcases List.mem_cons.mp hj with rfl | hj
        · exact ⟨e ▸ hi, Nat.lt_succ_self _⟩
        · have := h.kids i j hj; omega
      · have := h.kids x j hj; omega

theorem MInv.wait {n : Nest E V} (h : MInv n) {i : Nat} {k : Code} (hk : n.code i = .wait k) : MInv { n with code := upd n.code i k } := by
  refine ⟨fun x => ?_, h.nodup, h.apart, h.kids⟩
  have := h.given x
  by_cases e : x = i
  · subst e
    rw [hk] at this
    simp only [upd, if_true]
    exact this
  · simp only [upd_ne _ _ e]; exact this

theorem cancels_keep {n n' : Nest E V} (h : MInv n) (hs : Cancels n n') : MInv n' := by
  cases hs with
  | pending i b e hc hj => exact h.keep (by simp)
  | accepted i ctx0 b d ph m e hc hj hx => exact h.keep (by simp)

theorem made_n {size : Int} {n : Nest E V} (h : NReach size n) : MInv n := by
  induction h with
  | init hw => exact MInv.init _
  | call f ctx h hc ih => exact ih.call f ctx
  | cancel h hs ih => exact cancels_keep ih hs
  | inner h hs ih =>
    cases hs with
    | own w' ho => exact ih.keep (length_own ho)
    | deferReturns i ctx0 b d m hc hj => exact ih.keep (by simp)
    | run i f k ctx hc hr hn hk => exact ih.run (runs_lt hr) hk ctx
    | wait i k hc hr hn hk hd => exact ih.wait hk
    | returns i ctx0 b d ph m e hc hj hg hn hk => exact ih.keep (by simp)

theorem made_d {size : Int} {n : Nest E V} (h : DReach size n) : MInv n := by
  induction h with
  | init hw => exact MInv.init _
  | step h hs ih =>
    cases hs with
    | call f ctx hc => exact ih.call f ctx
    | cancel hs => exact cancels_keep ih hs
    | inner hs =>
      cases hs with
      | own w' ho => exact ih.keep (length_own ho)
      | runEnds i ctx0 b d ph m e hc hj hg => exact ih.keep (by simp)
      | run i f k ctx hc hr hn hk => exact ih.run (finishing_lt hr) hk ctx
      | wait i k hc hr hn hk hd => exact ih.wait hk
      | returns i ctx0 b d m hc hj hn hk => exact ih.keep (by simp)

/-- **C125.** A function that has returned has made the calls that its code says, in this order, each of them once and with the function it says. -/
theorem C125_made {size : Int} {n : Nest E V} (h : NReach size n) {i : Nat} {ctx0 : Option E} {b : Bool} {d : DoSt E V} {ph : Phase} {m : Nat}
    (hj : n.w.jobs[i]? = some (.accepted ctx0 b d ph m)) {o : Outcome E V} (ho : d.gor = .ended o) :
    (n.kids i).reverse.map n.fn = (n.fn i).given ∧ (n.kids i).Nodup := by
  have hi := made_n h
  have hret : n.code i = .ret := by
    rcases (j_inv h).over i _ _ _ _ _ hj with h1 | h1 | h1
    · rw [ho] at h1; simp at h1
    · rw [ho] at h1; simp at h1
    · exact h1
  have := hi.given i
  rw [hret] at this
  exact ⟨by simpa [Code.given] using this, hi.nodup i⟩

/-- **C144.** A `deferFunc` that has returned has made the calls that its code says, in this order, each of them once and with the `deferFunc` it says. -/
theorem C144_made {size : Int} {n : Nest E V} (h : DReach size n) {i : Nat} {ctx0 : Option E} {b : Bool} {d : DoSt E V} {m : Nat}
    (hj : n.w.jobs[i]? = some (.accepted ctx0 b d .after m)) : (n.kids i).reverse.map n.fn = (n.fn i).given ∧ (n.kids i).Nodup := by
  have hi := made_d h
  have := hi.given i
  rw [(d_joins h).over i (deferred_iff.mpr ⟨_, _, _, _, hj⟩)] at this
  exact ⟨by simpa [Code.given] using this, hi.nodup i⟩

/-- **C125.** Different functions make different calls, and a call is made after the function that makes it was given to `Run`. -/
theorem C125_apart {size : Int} {n : Nest E V} (h : NReach size n) {i j : Nat} (hj : j ∈ n.kids i) :
    i < j ∧ j < n.w.jobs.length ∧ ∀ i', j ∈ n.kids i' → i' = i :=
  ⟨((made_n h).kids i j hj).1, ((made_n h).kids i j hj).2, fun i' h' => (made_n h).apart i' i j h' hj⟩

/-- **C144.** Different `deferFunc`s make different calls, and a call is made after the `deferFunc` that makes it was given to `Run`. -/
theorem C144_apart {size : Int} {n : Nest E V} (h : DReach size n) {i j : Nat} (hj : j ∈ n.kids i) :
    i < j ∧ j < n.w.jobs.length ∧ ∀ i', j ∈ n.kids i' → i' = i :=
  ⟨((made_d h).kids i j hj).1, ((made_d h).kids i j hj).2, fun i' h' => (made_d h).apart i' i j h' hj⟩

/-! ## Examples -/

example : [1].map endNest.fn = [Code.ret] := (C125_made demoNest (i := 0) rfl rfl).1
example : [1].map endD.fn = [Code.ret] := (C144_made demoD (i := 0) rfl).1
example : ∀ i', 1 ∈ endNest.kids i' → i' = 0 := (C125_apart demoNest (i := 0) (List.mem_singleton.mpr rfl)).2.2
example : ∀ i', 1 ∈ endD.kids i' → i' = 0 := (C144_apart demoD (i := 0) (List.mem_singleton.mpr rfl)).2.2

end Verif.XWorker

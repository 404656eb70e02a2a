import Verif.XWorker.BothInside
/-!
# Which calls of `Run` the functions in a `Worker` make if they may panic (C146)

The theorems of `BothMade.lean` for functions that end with a return or a panic.
-/
namespace Verif.XWorker
open Verif.Go Verif.XTask

variable {E V : Type}

/-! ## Specification -/

/-- The functions given to the calls of `Run` in the code, in the order of the calls: `run` and `deferFunc` of each. -/
def PBody.given : PBody → List (PBody × PBody)
  | .ret => []
  | .panic => []
  | .run r d k => (r, d) :: k.given
  | .wait k => k.given

/-- The last thing the function does before it returns or panics is to wait for its calls. -/
def PBody.joins : PBody → Prop
  | .ret => False
  | .panic => False
  | .run _ _ k => k.joins
  | .wait .ret => True
  | .wait .panic => True
  | .wait k => k.joins

/-- The function has returned or panicked: `run` after it was started, `deferFunc` after it was called. -/
def Job.done : Job E V → Part → Prop
  | .pending _ _, _ => False
  | .accepted _ _ d _ _, .run => d.gor ≠ .none ∧ d.gor ≠ .running
  | .accepted _ _ _ ph _, .deferFunc => ph = .after ∨ ph = .panicked

/-- Nothing is left to do but to return or to panic. -/
def PBody.ends : PBody → Prop
  | .ret => True
  | .panic => True
  | .run _ _ _ => False
  | .wait _ => False

/-- The two functions given to a call. -/
def PBoth.pair (n : PBoth E V) (i : Nat) : PBody × PBody := (n.fn i .run, n.fn i .deferFunc)

/-! ## Proofs -/

/-- Proof only: the calls made so far and the ones to come are the calls in the code; they are different calls, and later ones than the call itself. -/
structure PMade (n : PBoth E V) : Prop where
  given : ∀ i s, (n.kids i s).reverse.map n.pair ++ (n.code i s).given = (n.fn i s).given
  nodup : ∀ i s, (n.kids i s).Nodup
  apart : ∀ i s i' s', ∀ j ∈ n.kids i s, j ∈ n.kids i' s' → i = i' ∧ s = s'
  kids : ∀ i s, ∀ j ∈ n.kids i s, i < j ∧ j < n.w.jobs.length
  over : ∀ i j s, n.w.jobs[i]? = some j → j.done s → (n.code i s).ends
  joins : ∀ i s, (n.fn i s).joins → (n.code i s).joins ∨ (n.code i s).ends ∧ ∀ j ∈ n.kids i s, n.w.deferred j

theorem PMade.keep {n : PBoth E V} (h : PMade n) {w' : Worker E V} (hs : WStep n.w w') (hl : w'.jobs.length = n.w.jobs.length)
    (ho : ∀ i j s, w'.jobs[i]? = some j → j.done s → (n.code i s).ends) : PMade { n with w := w' } :=
  ⟨h.given, h.nodup, h.apart, by simpa [hl] using h.kids, ho,
    fun i s hi => (h.joins i s hi).imp id fun ⟨h1, h2⟩ => ⟨h1, fun j hj => after_stable hs (h2 j hj)⟩⟩

theorem settledP_set {jobs : List (Job E V)} {code : Nat → Part → PBody} {k : Nat} {a : Job E V} (h : ∀ i j s, jobs[i]? = some j → j.done s → (code i s).ends)
    (ha : ∀ s, a.done s → (code k s).ends) : ∀ i j s, (jobs.set k a)[i]? = some j → j.done s → (code i s).ends := by
  intro i j s hi hj
  by_cases e : k = i
  · subst e
    have hlt : k < jobs.length := by simpa using (List.getElem?_eq_some_iff.mp hi).1
    rw [List.getElem?_set_self hlt, Option.some.injEq] at hi
    subst hi
    exact ha s hj
  · rw [List.getElem?_set_ne e] at hi
    exact h i j s hi hj

theorem pairP_start {n : PBoth E V} {r d : PBody} {ctx : Option E} {l : List Nat} (h : ∀ j ∈ l, j < n.w.jobs.length) :
    l.reverse.map (n.start r d ctx).pair = l.reverse.map n.pair :=
  List.map_congr_left fun j hj => by
    have := h j (List.mem_reverse.mp hj)
    simp only [PBoth.pair, PBoth.start]
    rw [upd2_ne _ _ (by omega), upd2_ne _ _ (by omega), upd2_ne _ _ (by omega), upd2_ne _ _ (by omega)]

theorem PMade.start {n : PBoth E V} (hc : n.w.crashed = false) (r d : PBody) (ctx : Option E)
    (given : ∀ i s, i ≠ n.w.jobs.length → (n.kids i s).reverse.map (n.start r d ctx).pair ++ (n.code i s).given = (n.fn i s).given)
    (nodup : ∀ i s, (n.kids i s).Nodup)
    (apart : ∀ i s i' s', ∀ j ∈ n.kids i s, j ∈ n.kids i' s' → i = i' ∧ s = s')
    (kids : ∀ i s, ∀ j ∈ n.kids i s, i < j ∧ j < n.w.jobs.length + 1)
    (over : ∀ i j s, n.w.jobs[i]? = some j → j.done s → (n.code i s).ends)
    (joins : ∀ i s, (n.fn i s).joins → (n.code i s).joins ∨ (n.code i s).ends ∧ ∀ j ∈ n.kids i s, n.w.deferred j) : PMade (n.start r d ctx) where
  given := by
    intro i s
    have := given i s
    by_cases e : i = n.w.jobs.length
    · simp only [PBoth.start, start_at, if_pos e]; cases s <;> rfl
    · have h1 : (n.start r d ctx).kids i s = n.kids i s := by simp only [PBoth.start, start_at, if_neg e]
      have h2 : (n.start r d ctx).code i s = n.code i s := by simp only [PBoth.start, start_at, if_neg e]
      have h3 : (n.start r d ctx).fn i s = n.fn i s := by simp only [PBoth.start, start_at, if_neg e]
      rw [h1, h2, h3]; exact this e
  nodup := by
    intro i s
    simp only [PBoth.start, start_at]
    split
    · cases s <;> simp
    · exact nodup i s
  apart := by
    intro i s i' s' j h1 h2
    simp only [PBoth.start, start_at] at h1 h2
    split at h1
    · cases s <;> simp at h1
    · split at h2
      · cases s' <;> simp at h2
      · exact apart i s i' s' j h1 h2
  kids := by
    intro i s j hj
    simp only [PBoth.start, start_at] at hj
    split at hj
    · cases s <;> simp at hj
    · have := kids i s j hj
      simp only [PBoth.start, List.length_append, List.length_singleton]; exact this
  over := by
    intro i j s hi hj
    simp only [PBoth.start, start_at] at hi ⊢
    by_cases e : i < n.w.jobs.length
    · rw [List.getElem?_append_left e] at hi
      rw [if_neg (by omega)]; exact over i j s hi hj
    · rw [List.getElem?_append_right (Nat.not_lt.mp e)] at hi
      cases hx : i - n.w.jobs.length with
      | zero =>
        simp only [hx, List.getElem?_cons_zero, Option.some.injEq] at hi
        subst hi; exact absurd hj (by cases s <;> simp [Job.done])
      | succ x => simp [hx] at hi
  joins := by
    intro i s hi
    simp only [PBoth.start, start_at] at hi ⊢
    split at hi
    · rename_i e; simp only [if_pos e]; exact .inl hi
    · rename_i e; simp only [if_neg e]
      exact (joins i s hi).imp id fun ⟨h1, h2⟩ => ⟨h1, fun j hj => after_stable (.call _ ctx false hc) (h2 j hj)⟩

theorem activeP_unsettled {n : PBoth E V} {i : Nat} {s : Part} (ha : n.active i s) {j : Job E V} (hj : n.w.jobs[i]? = some j) : ¬ j.done s := by
  cases s with
  | run =>
    obtain ⟨_, _, _, _, _, h, hg⟩ := ha
    rw [hj, Option.some.injEq] at h
    subst h; simp [Job.done, hg]
  | deferFunc =>
    obtain ⟨_, _, _, _, h⟩ := ha
    rw [hj, Option.some.injEq] at h
    subst h; simp [Job.done]

theorem made_p {size : Int} {n : PBoth E V} (h : PReach size n) : PMade n := by
  induction h with
  | @init w hw =>
    unfold newWorker at hw
    split at hw
    · simp at hw
    · simp only [Option.some.injEq] at hw; subst hw
      exact ⟨fun _ _ => rfl, by simp, by simp, by simp, by simp, by simp [PBody.joins]⟩
  | @call n r d ctx h hc ih =>
    exact PMade.start hc r d ctx (fun i s _ => by rw [pairP_start fun j hj => (ih.kids i s j hj).2]; exact ih.given i s) ih.nodup ih.apart
      (fun i s j hj => by have := ih.kids i s j hj; omega) ih.over ih.joins
  | @cancel n _ h hs ih =>
    have hw := cancelsP_w hs
    cases hs with
    | pending i b e hc hj => exact ih.keep hw (by simp) (settledP_set ih.over fun s hs => absurd hs (by cases s <;> simp [Job.done]))
    | accepted i ctx0 b d ph m e hc hj hx =>
      exact ih.keep hw (by simp) (settledP_set ih.over fun s hs => ih.over i _ s hj (by cases s <;> exact hs))
  | @inner n _ h hs ih =>
    cases hs with
    | own w' ho =>
      refine ih.keep (step_iff.mpr (.inl ho)) (length_own ho) ?_
      have dostep : ∀ {i ctx0 b d d' ph m}, n.w.jobs[i]? = some (.accepted ctx0 b d ph m) → DoStep true d d' → (d.gor = .running → d'.gor = .running) →
          ∀ s, (Job.accepted ctx0 b d' ph m).done s → (n.code i s).ends := by
        intro i ctx0 b d d' ph m hj hd hg s hs
        cases s with
        | run =>
          rcases gor_step hd hg with h1 | h1 | h1
          · exact absurd h1 hs.1
          · exact absurd h1 hs.2
          · exact ih.over i _ .run hj h1
        | deferFunc => exact ih.over i _ .deferFunc hj hs
      cases ho with
      | accept i ctx b c h1 h2 h3 => exact settledP_set ih.over fun s hs => absurd hs (by cases s <;> simp [Job.done, doInit])
      | doOwn i ctx0 b d d' ph m h1 h2 h3 h4 => exact settledP_set ih.over (dostep h2 h3.1 h3.2.2)
      | deferCall i ctx0 d m o h1 h2 h3 =>
        refine settledP_set ih.over fun s hs => ?_
        cases s with
        | run => exact ih.over i _ .run h2 hs
        | deferFunc => simp [Job.done] at hs
      | deferNil i ctx0 d m o h1 h2 h3 => exact absurd ((p_inv h).ok _ _ h2).1 (by simp)
      | release i ctx0 b d d' m c o h1 h2 h3 h4 h5 h6 => exact settledP_set ih.over (dostep h2 h5 (by cases h5 <;> simp_all))
    | run i s r d k ctx hc hr hn hk =>
      have hi := activeP_lt hr
      have old : ∀ x t, n.w.jobs.length ∉ n.kids x t := fun x t hm => by have := (ih.kids x t _ hm).2; omega
      refine PMade.start (n := { n with code := upd2 n.code i s k, kids := upd2 n.kids i s (n.w.jobs.length :: n.kids i s) }) hc r d ctx
        (fun x t e => ?_) (fun x t => ?_) (fun x t y u j h1 h2 => ?_) (fun x t j hj => ?_) (fun x j t hx hj => ?_) (fun x t hx => ?_)
      · have := ih.given x t
        have hp : (n.kids x t).reverse.map (({ n with code := upd2 n.code i s k, kids := upd2 n.kids i s (n.w.jobs.length :: n.kids i s) } : PBoth E V).start r d ctx).pair
            = (n.kids x t).reverse.map n.pair :=
          pairP_start (n := { n with code := upd2 n.code i s k, kids := upd2 n.kids i s (n.w.jobs.length :: n.kids i s) }) fun j hj => (ih.kids x t j hj).2
        by_cases e' : x = i ∧ t = s
        · obtain ⟨rfl, rfl⟩ := e'
          rw [hk] at this
          simp only [upd2_self, List.reverse_cons, List.map_append, List.map_cons, List.map_nil, List.append_assoc, List.singleton_append]
          rw [← this, hp]
          congr 2
          simp only [PBoth.pair, PBoth.start, start_at, if_true]
        · simp only [upd2_ne _ _ e']
          rw [hp]; exact this
      · simp only [upd2]
        split
        · exact List.nodup_cons.mpr ⟨old i s, ih.nodup i s⟩
        · exact ih.nodup x t
      · simp only [upd2] at h1 h2
        split at h1 <;> split at h2
        · rename_i e1 e2; exact ⟨e1.1.trans e2.1.symm, e1.2.trans e2.2.symm⟩
        · rename_i e1 e2
          rcases List.mem_cons.mp h1 with rfl | h1
          · exact absurd h2 (old _ _)
          · rw [e1.1, e1.2]; exact ih.apart i s y u j h1 h2
        · rename_i e1 e2
          rcases List.mem_cons.mp h2 with rfl | h2
          · exact absurd h1 (old _ _)
          · rw [e2.1, e2.2]; exact ih.apart x t i s j h1 h2
        · exact ih.apart x t y u j h1 h2
      · simp only [upd2] at hj
        split at hj
        · rename_i e
          rcases List.mem_cons.mp hj with rfl | hj
          · exact ⟨e.1 ▸ hi, Nat.lt_succ_self _⟩
          · have := ih.kids i s j hj; exact ⟨by omega, by simp only; omega⟩
        · have := ih.kids x t j hj; exact ⟨by omega, by simp only; omega⟩
      · by_cases e : x = i ∧ t = s
        · obtain ⟨rfl, rfl⟩ := e
          exact absurd hj (activeP_unsettled hr hx)
        · simp only [upd2_ne _ _ e]; exact ih.over x j t hx hj
      · have := ih.joins x t hx
        by_cases e : x = i ∧ t = s
        · obtain ⟨rfl, rfl⟩ := e
          simp only [upd2_self]
          rw [hk] at this
          exact .inl (this.resolve_right (by simp [PBody.ends]))
        · simp only [upd2_ne _ _ e]; exact this
    | wait i s k hc hr hn hk hd =>
      refine ⟨fun x t => ?_, ih.nodup, ih.apart, ih.kids, fun x j t hx hj => ?_, fun x t hx => ?_⟩
      · have := ih.given x t
        by_cases e : x = i ∧ t = s
        · obtain ⟨rfl, rfl⟩ := e
          rw [hk] at this
          simp only [upd2_self]
          exact this
        · simp only [upd2_ne _ _ e]; exact this
      · by_cases e : x = i ∧ t = s
        · obtain ⟨rfl, rfl⟩ := e
          exact absurd hj (activeP_unsettled hr hx)
        · simp only [upd2_ne _ _ e]; exact ih.over x j t hx hj
      · have := ih.joins x t hx
        by_cases e : x = i ∧ t = s
        · obtain ⟨rfl, rfl⟩ := e
          simp only [upd2_self]
          rw [hk] at this
          have := this.resolve_right (by simp [PBody.ends])
          cases k with
          | ret => exact .inr ⟨trivial, hd⟩
          | panic => exact .inr ⟨trivial, hd⟩
          | run r d k => exact .inl this
          | wait k => exact .inl this
        · simp only [upd2_ne _ _ e]; exact this
    | runReturns i ctx0 b d ph m e hc hj hg hn hk =>
      refine ih.keep (step_iff.mpr (.inr (.runEnds _ _ _ _ _ _ _ _ hc hj hg))) (by simp) (settledP_set ih.over fun s hs => ?_)
      cases s with
      | run => rw [hk]; trivial
      | deferFunc => exact ih.over i _ .deferFunc hj hs
    | deferReturns i ctx0 b d m hc hj hn hk =>
      refine ih.keep (.deferReturn _ _ _ _ _ _ hc hj) (by simp) (settledP_set ih.over fun s hs => ?_)
      cases s with
      | run => exact ih.over i _ .run hj hs
      | deferFunc => rw [hk]; trivial
    | runPanics i ctx0 b d ph m v hc hj hg hn hk =>
      refine ih.keep (step_iff.mpr (.inr (.runEnds _ _ _ _ _ _ _ _ hc hj hg))) (by simp) (settledP_set ih.over fun s hs => ?_)
      cases s with
      | run => rw [hk]; trivial
      | deferFunc => exact ih.over i _ .deferFunc hj hs
    | deferPanics i ctx0 b d m hc hj hn hk =>
      refine ih.keep (.deferPanic _ _ _ _ _ _ hc hj) (by simp) (settledP_set ih.over fun s hs => ?_)
      cases s with
      | run => exact ih.over i _ .run hj hs
      | deferFunc => rw [hk]; trivial

/-! ## Theorems -/

/-- **C146.** A function that has returned or panicked has made the calls that its code says, in this order, each of them once and with the functions it says. -/
theorem C146_made {size : Int} {n : PBoth E V} (h : PReach size n) {i : Nat} {s : Part} {j : Job E V} (hj : n.w.jobs[i]? = some j) (ho : j.done s) :
    (n.kids i s).reverse.map n.pair = (n.fn i s).given ∧ (n.kids i s).Nodup := by
  have hi := made_p h
  have := hi.given i s
  have he := hi.over i j s hj ho
  exact ⟨by cases hk : n.code i s <;> simp_all [PBody.given, PBody.ends], hi.nodup i s⟩

/-- **C146.** Different functions make different calls, and a call is made after the function that makes it was given to `Run`. -/
theorem C146_apart {size : Int} {n : PBoth E V} (h : PReach size n) {i j : Nat} {s : Part} (hj : j ∈ n.kids i s) :
    i < j ∧ j < n.w.jobs.length ∧ ∀ i' s', j ∈ n.kids i' s' → i' = i ∧ s' = s :=
  ⟨((made_p h).kids i s j hj).1, ((made_p h).kids i s j hj).2, fun i' s' h' => (made_p h).apart i' s' i s j h' hj⟩

/-- **C146.** A function that waits for its calls at its end, before it returns or panics, has them all behind it then: each of them was taken on, and its `deferFunc`
was called once and has returned. -/
theorem C146_joined {size : Int} {n : PBoth E V} (h : PReach size n) {i : Nat} {s : Part} (hf : (n.fn i s).joins) {j : Job E V}
    (hj : n.w.jobs[i]? = some j) (ho : j.done s) {x : Nat} (hx : x ∈ n.kids i s) :
    ∃ ctx1 b1 d1, n.w.jobs[x]? = some (.accepted ctx1 b1 d1 .after 1) := by
  have hi := made_p h
  rcases hi.joins i s hf with h1 | ⟨-, h1⟩
  · have he := hi.over i j s hj ho
    cases hk : n.code i s <;> simp_all [PBody.joins, PBody.ends]
  · obtain ⟨ctx1, b1, d1, m1, h2⟩ := h1 x hx
    obtain ⟨g1, g2, g3, g4⟩ := (w_inv (C146_worker h)).jobs _ (List.mem_of_getElem? h2)
    obtain ⟨rfl, _⟩ := g3 (by simp)
    exact ⟨_, _, _, h2⟩

/-! ## Examples -/

example : [1].map lostP.pair = [(PBody.ret, PBody.ret)] := (C146_made demoLostP (i := 0) (s := .run) rfl ⟨by simp, by simp⟩).1
example : ∀ i' s', 1 ∈ lostP.kids i' s' → i' = 0 ∧ s' = .run := (C146_apart demoLostP (i := 0) (List.mem_singleton.mpr rfl)).2.2
example : ∃ ctx1 b1 d1, endB.mayPanic.w.jobs[1]? = some (.accepted ctx1 b1 d1 .after 1) :=
  C146_joined (C146_has_C145 demoB) (i := 0) (s := .deferFunc) trivial rfl (.inl rfl) (List.mem_singleton.mpr rfl)

end Verif.XWorker

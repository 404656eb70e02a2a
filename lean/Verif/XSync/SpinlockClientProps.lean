import Verif.XSync.SpinlockClient
import Verif.Conc.Refine
/-! # Critical sections under a spinlock are atomic and free of data races (C111) -/
namespace Verif.XSync.Spinlock
open Verif.Conc

variable {D R : Type}

/-- Abbreviation. -/
abbrev SView (D R : Type) := View (Session D R) (Out R) (Pt × Body D R)

/-- Session `i` is between its `Lock` and its `Unlock`. -/
def Within (v : SView D R) (i : Nat) : Prop := ∃ op b, v i = some (op, .inl (.critical, b))

/-- What is known about a session from where it is. `m₀` is the memory when the lock was last acquired. -/
structure SInv (g : Shared D) (v : SView D R) (gh : Ghost (Nat → D) (Session D R) (Out R)) : Prop where
  locked : g.word = true ↔ ∃ i, Within v i
  only : ∀ i j, Within v i → Within v j → i = j
  free : g.word = false → gh.cur = g.mem
  log : (∀ x ∈ gh.log, ∃ r, x.2.2 = .released r) ∧ ∀ x ∈ gh.reads, x.2.2.2 = .refused
  /-- whatever the rest of a critical section does, the whole does from the abstract memory -/
  inside : ∀ i op b, v i = some (op, .inl (.critical, b)) → ∀ m' r, b.Runs g.mem m' r → op.body.Runs gh.cur m' r
  outside : ∀ i op p b, v i = some (op, .inl (p, b)) → p ≠ .critical → b = op.body
  kind : ∀ i op b, v i = some (op, .inl (.try_, b)) → op.how = .tryLock
  refused : ∀ i op, v i = some (op, .inr .refused) → op.how = .tryLock
  st : ∀ i op s, v i = some (op, .inl s) → gh.st i = .invoked op
  ret : ∀ i op r, v i = some (op, .inr r) → gh.st i = .done ∨ (gh.st i = .committed op r) ∨ (gh.st i = .invoked op ∧ r = .refused)
  none_ : ∀ i, v i = none → gh.st i = .idle

theorem within_other {v : SView D R} {i j : Nat} {x : Option (Session D R × ((Pt × Body D R) ⊕ Out R))} (hj : j ≠ i) : Within (upd v i x) j ↔ Within v j := by
  unfold Within; rw [upd_ne _ _ hj]

theorem within_same {v : SView D R} {i : Nat} {op : Session D R} {y : (Pt × Body D R) ⊕ Out R} :
    Within (upd v i (some (op, y))) i ↔ ∃ b, y = .inl (.critical, b) := by
  unfold Within; simp

theorem SInv.init (mem : Nat → D) : SInv (R := R) (progS (R := R) mem).init (fun _ => none) (Ghost.init (sectionSpec mem)) := by
  constructor <;> simp [Within, progS, prog, Ghost.init, Ghost.cur, sectionSpec]

/-- The session `i` moves to a place outside its critical section, from one outside. -/
theorem SInv.keep {g : Shared D} {v : SView D R} {gh : Ghost (Nat → D) (Session D R) (Out R)} (h : SInv g v gh) {i : Nat} {op : Session D R}
    {p : Pt} {b : Body D R} (hv : v i = some (op, .inl (p, b))) (hp : p ≠ .critical) {y : (Pt × Body D R) ⊕ Out R}
    (hy : (∃ p', y = .inl (p', b) ∧ p' ≠ .critical ∧ (p' = .try_ → op.how = .tryLock)) ∨ (y = .inr .refused ∧ op.how = .tryLock)) :
    SInv g (upd v i (some (op, y))) gh := by
  have hni : ¬ Within v i := by rintro ⟨_, _, h'⟩; rw [hv] at h'; simp at h'; exact hp h'.2.1
  have hny : ∀ b, y ≠ .inl (.critical, b) := by
    rintro b rfl
    rcases hy with ⟨p', h1, h2, _⟩ | ⟨h1, _⟩
    · simp at h1; exact h2 h1.1.symm
    · simp at h1
  have hw : ∀ j, Within (upd v i (some (op, y))) j ↔ Within v j := by
    intro j
    by_cases hj : j = i
    · subst hj; rw [within_same]; exact ⟨fun ⟨b, hb⟩ => absurd hb (hny b), fun h' => absurd h' hni⟩
    · exact within_other hj
  have hb := h.outside i op p b hv hp
  have hst := h.st i op _ hv
  refine ⟨?_, ?_, h.free, h.log, ?_, ?_, ?_, ?_, ?_, ?_, ?_⟩
  · rw [h.locked]; simp only [hw]
  · intro a c ha hc; rw [hw] at ha hc; exact h.only a c ha hc
  all_goals
    intro j
    by_cases hj : j = i
    · subst hj
      simp only [upd_same, Option.some.injEq, Prod.mk.injEq, reduceCtorEq, false_implies]
      try
        rintro op' x ⟨rfl, rfl⟩
        first
          | exact absurd rfl (hny _)
          | exact hst
          | (rcases hy with ⟨p', h1, h2, h3⟩ | ⟨h1, h2⟩ <;> simp_all)
      try
        rintro op' p' b' ⟨rfl, rfl⟩ _
        rcases hy with ⟨p', h1, h2, h3⟩ | ⟨h1, h2⟩
        · simp at h1; rw [h1.2]; exact hb
        · simp at h1
      try
        rintro op' ⟨rfl, rfl⟩
        rcases hy with ⟨p', h1, h2, h3⟩ | ⟨h1, h2⟩
        · simp at h1
        · exact h2
    · rw [upd_ne _ _ hj]
      first | exact h.inside j | exact h.outside j | exact h.kind j | exact h.refused j | exact h.st j | exact h.ret j | exact h.none_ j

/-- The session `i` acquires the lock. -/
theorem SInv.enter {g : Shared D} {v : SView D R} {gh : Ghost (Nat → D) (Session D R) (Out R)} (h : SInv g v gh) {i : Nat} {op : Session D R}
    {p : Pt} {b : Body D R} (hv : v i = some (op, .inl (p, b))) (hp : p ≠ .critical) (hw : g.word = false) :
    SInv { g with word := true } (upd v i (some (op, .inl (.critical, b)))) gh := by
  have hno : ∀ j, ¬ Within v j := fun j hj => by have := h.locked.mpr ⟨j, hj⟩; rw [hw] at this; simp at this
  have hb := h.outside i op p b hv hp
  have hi : ∀ a, Within (upd v i (some (op, .inl (.critical, b)))) a → a = i := by
    intro a ha
    by_cases hai : a = i
    · exact hai
    · rw [within_other hai] at ha; exact absurd ha (hno a)
  refine ⟨⟨fun _ => ⟨i, within_same.mpr ⟨b, rfl⟩⟩, fun _ => rfl⟩, fun a c ha hc => by rw [hi a ha, hi c hc], by simp, h.log, ?_, ?_, ?_, ?_, ?_, ?_, ?_⟩
  · intro j op' b' hj m' r hr
    have := hi j ⟨_, _, hj⟩
    subst this
    simp only [upd_same, Option.some.injEq, Prod.mk.injEq, Sum.inl.injEq, true_and] at hj
    obtain ⟨rfl, rfl⟩ := hj
    rw [h.free hw, ← hb]; exact hr
  all_goals
    intro j
    by_cases hj : j = i
    · subst hj
      simp only [upd_same, Option.some.injEq, Prod.mk.injEq, reduceCtorEq, false_implies, and_false, implies_true]
      try
        rintro op' p' b' ⟨rfl, h1⟩ h2
        simp at h1; exact absurd h1.1.symm h2
      try
        rintro op' b' ⟨rfl, h1⟩
        first | exact h.st _ _ _ hv | simp at h1
    · rw [upd_ne _ _ hj]
      first | exact h.outside j | exact h.kind j | exact h.refused j | exact h.st j | exact h.ret j | exact h.none_ j

/-- The session `i` makes a step of its critical section. -/
theorem SInv.body {g : Shared D} {v : SView D R} {gh : Ghost (Nat → D) (Session D R) (Out R)} (h : SInv g v gh) {i : Nat} {op : Session D R}
    {b b' : Body D R} {mem' : Nat → D} (hv : v i = some (op, .inl (.critical, b))) (hs : ∀ m' r, b'.Runs mem' m' r → b.Runs g.mem m' r) :
    SInv { g with mem := mem' } (upd v i (some (op, .inl (.critical, b')))) gh := by
  have hi : Within v i := ⟨op, b, hv⟩
  have hw : ∀ j, Within (upd v i (some (op, .inl (.critical, b')))) j ↔ Within v j := by
    intro j
    by_cases hj : j = i
    · subst hj; exact ⟨fun _ => hi, fun _ => within_same.mpr ⟨b', rfl⟩⟩
    · exact within_other hj
  have hlock := h.locked.mpr ⟨i, hi⟩
  refine ⟨?_, ?_, ?_, h.log, ?_, ?_, ?_, ?_, ?_, ?_, ?_⟩
  · rw [show Shared.word { g with mem := mem' } = g.word from rfl, h.locked]; simp only [hw]
  · intro a c ha hc; rw [hw] at ha hc; exact h.only a c ha hc
  · intro hf; rw [show Shared.word { g with mem := mem' } = g.word from rfl, hlock] at hf; simp at hf
  · intro j op' b'' hj m' r hr
    have := h.only j i ((hw j).1 ⟨_, _, hj⟩) hi
    subst this
    simp only [upd_same, Option.some.injEq, Prod.mk.injEq, Sum.inl.injEq, true_and] at hj
    obtain ⟨rfl, rfl⟩ := hj
    exact h.inside j op b hv m' r (hs m' r hr)
  all_goals
    intro j
    by_cases hj : j = i
    · subst hj
      simp only [upd_same, Option.some.injEq, Prod.mk.injEq, reduceCtorEq, false_implies, and_false, implies_true]
      try
        rintro op' p' b' ⟨rfl, h1⟩ h2
        simp at h1; exact absurd h1.1.symm h2
      try
        rintro op' b' ⟨rfl, h1⟩
        first | exact h.st _ _ _ hv | simp at h1
    · rw [upd_ne _ _ hj]
      first | exact h.outside j | exact h.kind j | exact h.refused j | exact h.st j | exact h.ret j | exact h.none_ j

/-- The session `i` releases the lock. -/
theorem SInv.leave {mem : Nat → D} {g : Shared D} {v : SView D R} {gh : Ghost (Nat → D) (Session D R) (Out R)} (h : SInv g v gh) {i : Nat}
    {op : Session D R} {r : R} (hv : v i = some (op, .inl (.critical, .done r))) :
    gh.st i = .invoked op ∧ (sectionSpec mem).step gh.cur op (.released r) g.mem ∧
    SInv { g with word := false } (upd v i (some (op, .inr (.released r)))) (gh.commit i op (.released r) g.mem) := by
  have hi : Within v i := ⟨op, _, hv⟩
  have hno : ∀ j, ¬ Within (upd v i (some (op, .inr (.released r)))) j := by
    intro j hj
    by_cases hji : j = i
    · subst hji; rw [within_same] at hj; obtain ⟨b, hb⟩ := hj; simp at hb
    · rw [within_other hji] at hj; exact hji (h.only j i hj hi)
  refine ⟨h.st i op _ hv, h.inside i op _ hv _ _ (.done r g.mem), ?_⟩
  refine ⟨⟨by simp, fun ⟨j, hj⟩ => absurd hj (hno j)⟩, fun a c ha => absurd ha (hno a), fun _ => by simp [Ghost.commit, Ghost.cur], ⟨?_, h.log.2⟩, fun j op' b hj => absurd ⟨op', b, hj⟩ (hno j), ?_, ?_, ?_, ?_, ?_, ?_⟩
  · intro x hx
    simp only [Ghost.commit, List.mem_append, List.mem_singleton] at hx
    rcases hx with hx | rfl
    · exact h.log.1 x hx
    · exact ⟨r, rfl⟩
  all_goals
    intro j
    by_cases hj : j = i
    · subst hj
      simp [Ghost.commit]
    · rw [upd_ne _ _ hj]
      try simp only [Ghost.commit, upd_ne _ _ hj]
      first | exact h.outside j | exact h.kind j | exact h.refused j | exact h.st j | exact h.ret j | exact h.none_ j

theorem simulates {mem : Nat → D} {m : Conf (Shared D) (Session D R) (Out R) (Pt × Body D R)} {H : List (Ev (Session D R) (Out R))}
    (h : (progS mem).mach.Exec m H) : ∃ gh, GReach (sectionSpec mem) gh ∧ gh.hist = H ∧ SInv m.g m.view gh := by
  refine (progS mem).simulate (sectionSpec mem) SInv (SInv.init mem) ?_ ?_ ?_ h
  · intro g v gh i op _ hI hv hst
    have hw : ∀ j, Within (upd v i (some (op, .inl ((progS (R := R) mem).begin op)))) j ↔ Within v j := by
      intro j
      by_cases hj : j = i
      · subst hj
        rw [within_same]
        constructor
        · rintro ⟨b, hb⟩; cases hop : op.how <;> simp [progS, prog, hop] at hb
        · rintro ⟨_, _, h'⟩; rw [hv] at h'; simp at h'
      · exact within_other hj
    refine ⟨?_, ?_, hI.free, hI.log, ?_, ?_, ?_, ?_, ?_, ?_, ?_⟩
    · rw [hI.locked]; simp only [hw]
    · intro a c ha hc; rw [hw] at ha hc; exact hI.only a c ha hc
    all_goals
      intro j
      by_cases hj : j = i
      · subst hj
        cases hop : op.how <;> simp [progS, prog, Ghost.invoke, hop]
      · rw [upd_ne _ _ hj]
        try simp only [Ghost.invoke, upd_ne _ _ hj]
        first | exact hI.inside j | exact hI.outside j | exact hI.kind j | exact hI.refused j | exact hI.st j | exact hI.ret j | exact hI.none_ j
  · intro g v gh i op s c g' x _ hI hv hs
    obtain ⟨p, b⟩ := s
    simp only [progS] at hs
    cases p with
    | critical =>
      cases b with
      | read y k =>
        simp only [stepS, Option.some.injEq, Prod.mk.injEq] at hs
        obtain ⟨rfl, rfl⟩ := hs
        exact .inl (hI.body hv fun _ _ => .read)
      | write y d k =>
        simp only [stepS, Option.some.injEq, Prod.mk.injEq] at hs
        obtain ⟨rfl, rfl⟩ := hs
        exact .inl (hI.body hv fun _ _ => .write)
      | choose k =>
        simp only [stepS, Option.some.injEq, Prod.mk.injEq] at hs
        obtain ⟨rfl, rfl⟩ := hs
        exact .inl (hI.body hv fun _ _ => .choose c)
      | done r =>
        simp only [stepS, step, Option.map_some, Option.some.injEq, Prod.mk.injEq] at hs
        obtain ⟨rfl, rfl⟩ := hs
        exact .inr ⟨_, _, hI.leave hv⟩
    | spin b' n a =>
      simp only [stepS, step, Option.map_some, Option.some.injEq, Prod.mk.injEq] at hs
      obtain ⟨rfl, rfl⟩ := hs
      left
      cases hw : g.word with
      | true =>
        have := hI.keep hv (by simp) (y := .inl (.yield b' b' 0 (a + 1), b)) (.inl ⟨_, rfl, by simp, by simp⟩)
        cases g; simp only at hw; subst hw; simpa [cas] using this
      | false => simpa [cas] using hI.enter hv (by simp) hw
    | yield b' k n a =>
      have : g' = g ∧ ∃ p', x = .inl (p', b) ∧ p' ≠ .critical ∧ p' ≠ .try_ := by
        cases k <;> simp only [stepS, step, Option.map_some, Option.some.injEq, Prod.mk.injEq] at hs <;> obtain ⟨rfl, rfl⟩ := hs <;> exact ⟨rfl, _, rfl, by simp, by simp⟩
      obtain ⟨rfl, p', rfl, h1, h2⟩ := this
      exact .inl (hI.keep hv (by simp) (.inl ⟨_, rfl, h1, fun h' => absurd h' h2⟩))
    | try_ =>
      simp only [stepS, step, Option.map_some, Option.some.injEq, Prod.mk.injEq] at hs
      obtain ⟨rfl, rfl⟩ := hs
      left
      cases hw : g.word with
      | true =>
        have := hI.keep hv (by simp) (y := .inr .refused) (.inr ⟨rfl, hI.kind i op b hv⟩)
        cases g; simp only at hw; subst hw; simpa [cas] using this
      | false => simpa [cas] using hI.enter hv (by simp) hw
  · intro g v gh i op r _ hI hv hnd
    have rest : ∀ gh' : Ghost (Nat → D) (Session D R) (Out R), gh'.cur = gh.cur → gh'.log = gh.log → (∀ x ∈ gh'.reads, x.2.2.2 = .refused) → gh'.st i = .done → (∀ j, j ≠ i → gh'.st j = gh.st j) → SInv g v gh' := by
      intro gh' hc hl hrd h1 h2
      have hj : ∀ j op' s, v j = some (op', .inl s) → j ≠ i := by rintro j op' s h' rfl; rw [hv] at h'; simp at h'
      refine ⟨hI.locked, hI.only, by rw [hc]; exact hI.free, ⟨by rw [hl]; exact hI.log.1, hrd⟩, by rw [hc]; exact hI.inside, hI.outside, hI.kind, hI.refused, ?_, ?_, ?_⟩
      · intro j op' s h'; rw [h2 j (hj j op' s h')]; exact hI.st j op' s h'
      · intro j op' r' h'
        by_cases hji : j = i
        · subst hji; exact .inl h1
        · rw [h2 j hji]; exact hI.ret j op' r' h'
      · intro j h'
        have hji : j ≠ i := by rintro rfl; rw [hv] at h'; simp at h'
        rw [h2 j hji]; exact hI.none_ j h'
    rcases hI.ret i op r hv with h' | h' | ⟨h', rfl⟩
    · exact absurd h' hnd
    · exact .inl ⟨h', rest _ rfl rfl hI.log.2 (by simp [Ghost.retC]) fun j hj => by simp [Ghost.retC, upd_ne _ _ hj]⟩
    · rename_i hreach
      refine .inr ⟨gh.log.length, h', (ginv_reach hreach).startLe i, Nat.le_refl _, ⟨hI.refused i op hv, rfl⟩, rest _ rfl rfl ?_ (by simp [Ghost.retR]) fun j hj => by simp [Ghost.retR, upd_ne _ _ hj]⟩
      intro x hx
      simp only [Ghost.retR, List.mem_append, List.mem_singleton] at hx
      rcases hx with hx | rfl
      · exact hI.log.2 x hx
      · rfl

/-- Abbreviation. -/
abbrev SConf (D R : Type) := Conf (Shared D) (Session D R) (Out R) (Pt × Body D R)

/-- Session `i` is inside its critical section. -/
def Inside (m : SConf D R) (i : Nat) : Prop := ∃ op b, m.pc i = .at op (.critical, b)

theorem inside_within {m : SConf D R} {i : Nat} : Inside m i ↔ Within m.view i := by
  unfold Inside Within Conf.view
  cases h : m.pc i <;> simp [Proc.view]

/-- **C111.** Every history is linearizable to sessions that execute their critical sections in one step. -/
theorem C111_linearizable {mem : Nat → D} {m : SConf D R} {H : List (Ev (Session D R) (Out R))} (h : (progS mem).mach.Exec m H) :
    Linearizable (sectionSpec mem) H := by
  obtain ⟨gh, h1, rfl, _⟩ := simulates h
  exact h1.linearizable

/-- **C111.** In every reachable state there is an order `L` of the critical sections that have ended, in agreement with the real-time order and with
the results they returned, such that the memory, when nobody is inside, is what their execution one after the other leaves. -/
theorem C111_memory {mem : Nat → D} {m : SConf D R} {H : List (Ev (Session D R) (Out R))} (h : (progS mem).mach.Exec m H) :
    ∃ L : List (Nat × Session D R × Out R), (L.map (·.1)).Nodup ∧ (∀ x ∈ L, Ev.inv x.1 x.2.1 ∈ H ∧ ∃ r, x.2.2 = .released r) ∧
      (∀ i r, Ev.ret i (.released r) ∈ H → ∃ op, (i, op, .released r) ∈ L) ∧ L.Pairwise (fun x y => ¬ Before H y.1 x.1) ∧
      ((∀ i, ¬ Inside m i) → Runs (sectionSpec mem) mem L m.g.mem) := by
  obtain ⟨gh, h1, rfl, hI⟩ := simulates h
  have hi := ginv_reach h1
  refine ⟨gh.log, hi.logNodup, fun x hx => ⟨(hi.inLog x.1 x.2.1 x.2.2 hx).2.2.1, hI.log.1 x hx⟩, ?_, ?_, ?_⟩
  · intro i r hr
    rcases (hi.rets i _ hr).2 with h' | ⟨k, op, h'⟩
    · exact h'
    · have := hI.log.2 _ h'; simp at this
  · rw [List.pairwise_iff_getElem]
    intro a b ha hb hab hbef
    obtain ⟨f, hf, hle⟩ := hi.before _ _ hbef
    have e1 := hi.logTime a gh.log[a].1 gh.log[a].2.1 gh.log[a].2.2 (List.getElem?_eq_getElem ha)
    have e2 := hi.logTime b gh.log[b].1 gh.log[b].2.1 gh.log[b].2.2 (List.getElem?_eq_getElem hb)
    have := e2.2 f hf
    omega
  · intro hno
    have hw : m.g.word = false := by
      cases hw : m.g.word with
      | false => rfl
      | true =>
        obtain ⟨i, hi'⟩ := hI.locked.mp hw
        exact absurd (inside_within.mpr hi') (hno i)
    have := runs_of_states (S := sectionSpec mem) (st := gh.at') gh.log 0 (fun k i op r hk => by simpa using hi.legal k i op r hk)
    rw [hi.init, Nat.zero_add] at this
    rw [← hI.free hw]
    exact this

/-- **C111.** There are no data races on the guarded variables: whenever a session is about to access one, no other session is about to access any. -/
theorem C111_no_race {mem : Nat → D} {m : SConf D R} {H : List (Ev (Session D R) (Out R))} (h : (progS mem).mach.Exec m H) {i j x y : Nat} {w w' : Bool}
    (hi : AccessesVar m i x w) (hj : AccessesVar m j y w') : i = j := by
  obtain ⟨gh, _, _, hI⟩ := simulates h
  have key : ∀ i x w, AccessesVar m i x w → Within m.view i := by
    rintro i x w (⟨op, k, _, h'⟩ | ⟨op, d, k, _, h'⟩) <;> exact inside_within.mp ⟨_, _, h'⟩
  exact hI.only i j (key i x w hi) (key j y w' hj)

/-- A session inside its critical section can go on to its `Unlock`. -/
theorem finish {mem : Nat → D} {i : Nat} {op : Session D R} : ∀ (b : Body D R) {m : SConf D R} {H : List (Ev (Session D R) (Out R))},
    (progS mem).mach.Exec m H → m.view i = some (op, .inl (.critical, b)) →
    ∃ m' r, (progS mem).mach.Leads m H m' H ∧ m'.pc i = .ret op (.released r) ∧ m'.g.word = false ∧ ∀ j, j ≠ i → m'.pc j = m.pc j := by
  have more : ∀ {b b' : Body D R} {m : SConf D R} {H : List (Ev (Session D R) (Out R))} {g' : Shared D}, (progS mem).mach.Exec m H →
      m.view i = some (op, .inl (.critical, b)) → stepS m.g i op (.critical, b) 0 = some (g', .inl (.critical, b')) →
      (∀ {m : SConf D R} {H : List (Ev (Session D R) (Out R))}, (progS mem).mach.Exec m H → m.view i = some (op, .inl (.critical, b')) →
        ∃ m' r, (progS mem).mach.Leads m H m' H ∧ m'.pc i = .ret op (.released r) ∧ m'.g.word = false ∧ ∀ j, j ≠ i → m'.pc j = m.pc j) →
      ∃ m' r, (progS mem).mach.Leads m H m' H ∧ m'.pc i = .ret op (.released r) ∧ m'.g.word = false ∧ ∀ j, j ≠ i → m'.pc j = m.pc j := by
    intro b b' m H g' h hv hs ih
    obtain ⟨m1, h1, _, h2, h3, _⟩ := Prog.leads_step (Q := progS mem) (H := H) hv hs
    obtain ⟨m2, r, h4, h5, h6, h7⟩ := ih (h1.exec h) (by rw [h2, upd_same])
    exact ⟨m2, r, h1.trans h4, h5, h6, fun j hj => (h7 j hj).trans (h3 j hj)⟩
  intro b
  induction b with
  | read x k ih => intro m H h hv; exact more h hv rfl (ih (m.g.mem x))
  | write x d k ih => intro m H h hv; exact more h hv rfl ih
  | choose k ih => intro m H h hv; exact more h hv rfl (ih 0)
  | done r =>
    intro m H h hv
    obtain ⟨m1, h1, h0, h2, h3, h4⟩ := Prog.leads_step (Q := progS mem) (H := H) (c := 0) (g' := { m.g with word := false }) (x := .inr (.released r)) hv rfl
    refine ⟨m1, r, h1, ?_, by rw [h0], h3⟩
    have : m1.view i = some (op, .inr (.released r)) := by rw [h2, upd_same]
    simp only [Conf.view] at this
    cases hp : m1.pc i <;> simp [hp, Proc.view] at this
    · rw [this.1, this.2]
    · exact absurd hp (h4 _ _)

/-- A session that waits for the free lock can acquire it. -/
theorem acquire {mem : Nat → D} {i : Nat} {op : Session D R} {b : Body D R} : ∀ {p : Pt} {m : SConf D R} {H : List (Ev (Session D R) (Out R))},
    (progS mem).mach.Exec m H → m.view i = some (op, .inl (p, b)) → p ≠ .critical → m.g.word = false →
    ∃ m', (progS mem).mach.Leads m H m' H ∧ m'.view i = some (op, .inl (.critical, b)) := by
  have spin : ∀ {p : Pt} {m : SConf D R} {H : List (Ev (Session D R) (Out R))}, (progS mem).mach.Exec m H → m.view i = some (op, .inl (p, b)) →
      ((∃ b n a, p = .spin b n a) ∨ p = .try_) → m.g.word = false → ∃ m', (progS mem).mach.Leads m H m' H ∧ m'.view i = some (op, .inl (.critical, b)) := by
    intro p m H h hv hp hw
    obtain ⟨m1, h1, _, h2, _⟩ := Prog.leads_step (Q := progS mem) (H := H) (c := 0) (g' := { m.g with word := true }) (x := .inl (.critical, b)) hv (by
      rcases hp with ⟨b', n, a, rfl⟩ | rfl <;> simp [progS, stepS, step, cas, hw])
    exact ⟨m1, h1, by rw [h2, upd_same]⟩
  intro p m H h hv hp hw
  cases p with
  | critical => exact absurd rfl hp
  | try_ => exact spin h hv (.inr rfl) hw
  | spin b' n a => exact spin h hv (.inl ⟨_, _, _, rfl⟩) hw
  | yield b' k n a =>
    induction k generalizing m n with
    | zero =>
      obtain ⟨m1, h1, h0, h2, _⟩ := Prog.leads_step (Q := progS mem) (H := H) (c := 0) (g' := m.g) (x := .inl (.spin (if b' < maxBackoff then b' <<< 1 else b') n a, b)) hv rfl
      obtain ⟨m2, h3, h4⟩ := spin (h1.exec h) (by rw [h2, upd_same]) (.inl ⟨_, _, _, rfl⟩) (by rw [h0]; exact hw)
      exact ⟨m2, h1.trans h3, h4⟩
    | succ k ih =>
      obtain ⟨m1, h1, h0, h2, _⟩ := Prog.leads_step (Q := progS mem) (H := H) (c := 0) (g' := m.g) (x := .inl (.yield b' k (n + 1) a, b)) hv rfl
      obtain ⟨m2, h3, h4⟩ := ih (h1.exec h) (by rw [h0]; exact hw) (n + 1) (by rw [h2, upd_same]) (by simp)
      exact ⟨m2, h1.trans h3, h4⟩

/-- **C111.** There is no deadlock: from every reachable state, every session that has not returned can still return, without new sessions. -/
theorem C111_no_deadlock {mem : Nat → D} {m : SConf D R} {H : List (Ev (Session D R) (Out R))} (h : (progS mem).mach.Exec m H) {i : Nat}
    {op : Session D R} (hi : Ev.inv i op ∈ H) (hr : ∀ r, Ev.ret i r ∉ H) : ∃ m' H' r, (progS mem).mach.Leads m H m' (H ++ H') ∧ Ev.ret i r ∈ H' := by
  have last : ∀ {m : SConf D R} {r : Out R}, m.pc i = .ret op r →
      ∃ m' H' r, (progS mem).mach.Leads m H m' (H ++ H') ∧ Ev.ret i r ∈ H' := by
    intro m r hp
    have hst : (progS mem).mach.next m i 0 = some (some (.ret i r), ⟨m.g, upd m.pc i (.done op r)⟩) := by
      simp [Prog.mach, hp]
    exact ⟨_, _, r, .ev hst .refl, by simp⟩
  have inside : ∀ {m : SConf D R} {b : Body D R}, (progS mem).mach.Exec m H → m.view i = some (op, .inl (.critical, b)) →
      ∃ m' H' r, (progS mem).mach.Leads m H m' (H ++ H') ∧ Ev.ret i r ∈ H' := by
    intro m b h hv
    obtain ⟨m1, r, h1, h2, _⟩ := finish b h hv
    obtain ⟨m2, H', r, h3, h4⟩ := last h2
    exact ⟨m2, H', r, h1.trans h3, h4⟩
  rcases (progS mem).pending h hi hr with ⟨⟨p, b⟩, hp⟩ | ⟨r, hp⟩
  · have hv : m.view i = some (op, .inl (p, b)) := by simp [Conf.view, hp, Proc.view]
    by_cases hc : p = .critical
    · subst hc; exact inside h hv
    · cases hw : m.g.word with
      | false =>
        obtain ⟨m1, h1, h2⟩ := acquire h hv hc hw
        obtain ⟨m2, H', r, h3, h4⟩ := inside (h1.exec h) h2
        exact ⟨m2, H', r, h1.trans h3, h4⟩
      | true =>
        obtain ⟨gh, _, _, hI⟩ := simulates h
        obtain ⟨j, o, b', hj⟩ := hI.locked.mp hw
        have hji : i ≠ j := by rintro rfl; rw [hv] at hj; simp at hj; exact hc hj.2.1
        obtain ⟨m1, r, h1, _, h3, h4⟩ := finish b' h hj
        obtain ⟨m2, h5, h6⟩ := acquire (p := p) (b := b) (op := op) (i := i) (h1.exec h) (by simp only [Conf.view, h4 i hji]; exact hv) hc h3
        obtain ⟨m3, H', r, h7, h8⟩ := inside (h5.exec (h1.exec h)) h6
        exact ⟨m3, H', r, (h1.trans h5).trans h7, h8⟩
  · exact last hp

/-! ## An example of use: tickets -/

/-- `mu.Lock(); t := n; n = t + 1; mu.Unlock(); return t` -/
def ticket : Body Nat Nat := .read 0 fun t => .write 0 (t + 1) (.done t)

theorem ticket_runs {m m' : Nat → Nat} {r : Nat} (h : ticket.Runs m m' r) : r = m 0 ∧ m' 0 = m 0 + 1 := by
  cases h with | read h => cases h with | write h => cases h; simp

theorem tickets_from {mem : Nat → Nat} : ∀ {L : List (Nat × Session Nat Nat × Out Nat)} {s s' : Nat → Nat}, Runs (sectionSpec mem) s L s' →
    (∀ x ∈ L, x.2.1.body = ticket) → (∀ x ∈ L, ∀ r, x.2.2 = .released r → s 0 ≤ r) ∧
      L.Pairwise (fun x y => ∀ a b, x.2.2 = .released a → y.2.2 = .released b → a < b) := by
  intro L s s' h
  induction h with
  | nil => intro _; exact ⟨by simp, .nil⟩
  | @cons s s1 s2 i op r L hs _ ih =>
    intro hb
    obtain ⟨i1, i2⟩ := ih fun x hx => hb x (List.mem_cons_of_mem _ hx)
    have hop : op.body = ticket := hb _ List.mem_cons_self
    have hle : s 0 ≤ s1 0 ∧ ∀ a, r = .released a → a = s 0 ∧ s1 0 = s 0 + 1 := by
      cases r with
      | released a =>
        have hs' : op.body.Runs s s1 a := hs
        rw [hop] at hs'
        obtain ⟨rfl, h2⟩ := ticket_runs hs'
        exact ⟨by omega, by rintro a ⟨⟩; exact ⟨rfl, h2⟩⟩
      | refused => obtain ⟨_, rfl⟩ := hs; exact ⟨Nat.le_refl _, by simp⟩
    refine ⟨?_, ?_⟩
    · intro x hx a ha
      rcases List.mem_cons.mp hx with rfl | hx
      · exact Nat.le_of_eq (hle.2 a ha).1.symm
      · exact Nat.le_trans hle.1 (i1 x hx a ha)
    · refine List.Pairwise.cons ?_ i2
      intro y hy a b ha hb'
      obtain ⟨rfl, h2⟩ := hle.2 a ha
      have := i1 y hy b hb'
      omega

/-- C111, an instance: sessions that draw tickets under the lock never draw the same one. -/
theorem C111_tickets {mem : Nat → Nat} {m : SConf Nat Nat} {H : List (Ev (Session Nat Nat) (Out Nat))} (h : (progS mem).mach.Exec m H)
    (hb : ∀ i op, Ev.inv i op ∈ H → op.body = ticket) {i j a b : Nat} (hij : i ≠ j) (hi : Ev.ret i (.released a) ∈ H)
    (hj : Ev.ret j (.released b) ∈ H) : a ≠ b := by
  obtain ⟨L, h1, h2, h3, ⟨s, h4⟩, _⟩ := C111_linearizable h
  have hp := (tickets_from h4 fun x hx => hb _ _ (h2 x hx)).2
  obtain ⟨o1, m1⟩ := h3 i _ hi
  obtain ⟨o2, m2⟩ := h3 j _ hj
  rintro rfl
  obtain ⟨k, hk, e1⟩ := List.getElem_of_mem m1
  obtain ⟨l, hl, e2⟩ := List.getElem_of_mem m2
  rw [List.pairwise_iff_getElem] at hp
  rcases Nat.lt_trichotomy k l with hkl | rfl | hkl
  · exact absurd (hp k l hk hl hkl a a (by rw [e1]) (by rw [e2])) (Nat.lt_irrefl a)
  · rw [e1] at e2; simp at e2; exact hij e2.1
  · exact absurd (hp l k hl hk hkl a a (by rw [e2]) (by rw [e1])) (Nat.lt_irrefl a)

/-! ## The hypotheses can be met -/

/-- Session 1 has read the variable and is about to write; session 2 spins, the `TryLock` of session 3 was refused. -/
theorem demoSections : ∃ m : SConf Nat Nat, (progS (fun _ => 5)).mach.Exec m
    [.inv 1 ⟨.lock, ticket⟩, .inv 2 ⟨.lock, ticket⟩, .inv 3 ⟨.tryLock, ticket⟩, .ret 3 .refused] ∧ AccessesVar m 1 0 true :=
  Mach.exists_exec_state _ [.inv 1 ⟨.lock, ticket⟩, .run 1, .inv 2 ⟨.lock, ticket⟩, .run 2, .run 1, .inv 3 ⟨.tryLock, ticket⟩, .run 3, .run 3] _ _
    (by exact And.intro rfl (Or.inr ⟨_, _, _, rfl, rfl⟩))

/-- Both have finished, one after the other, although they overlapped. -/
theorem demoTickets : ∃ m : SConf Nat Nat, (progS (fun _ => 5)).mach.Exec m
    [.inv 1 ⟨.lock, ticket⟩, .inv 2 ⟨.lock, ticket⟩, .ret 1 (.released 5), .ret 2 (.released 6)] ∧ m.g.mem 0 = 7 ∧ ∀ i, ¬ Inside m i := by
  obtain ⟨m, h, h1, h2⟩ := Mach.exists_exec_state (progS (fun _ => 5)).mach [.inv 1 ⟨.lock, ticket⟩, .inv 2 ⟨.lock, ticket⟩, .run 1, .run 2, .run 1, .run 1, .run 1, .run 1, .run 2, .run 2, .run 2, .run 2, .run 2, .run 2, .run 2]
    [.inv 1 ⟨.lock, ticket⟩, .inv 2 ⟨.lock, ticket⟩, .ret 1 (.released 5), .ret 2 (.released 6)] (fun m : SConf Nat Nat => m.g.mem 0 = 7 ∧ m.g.word = false) (by exact And.intro rfl (And.intro rfl rfl))
  obtain ⟨gh, _, _, hI⟩ := simulates h
  exact ⟨m, h, h1, fun i hi => by have := hI.locked.mpr ⟨i, inside_within.mp hi⟩; rw [h2] at this; simp at this⟩

example := demoTickets.imp fun _ h => C111_linearizable h.1
example := demoTickets.imp fun _ h => (C111_memory h.1).imp fun _ hL => hL.2.2.2.2 h.2.2
example := demoSections.imp fun _ h => C111_no_race h.1 h.2 h.2
example := demoSections.imp fun _ h => C111_no_deadlock h.1 (i := 2) (op := ⟨.lock, ticket⟩) (by simp) (by simp)
example := demoTickets.imp fun _ h => C111_tickets h.1 (by simp; rintro i op (⟨_, rfl⟩ | ⟨_, rfl⟩) <;> rfl) (i := 1) (j := 2) (a := 5) (b := 6) (by decide) (by simp) (by simp)

end Verif.XSync.Spinlock

import Verif.Conc.Net
/-! # Components that consist of one goroutine, and linear networks -/
namespace Verif.Conc.Net

variable {A L : Type}

/-- What the goroutine does next, with the state in which it continues. -/
inductive Cmd (A L σ : Type) where
  | recv (p : Nat) (k : Option A → σ)
  | send (q : Nat) (v : A) (k : σ)
  | close (q : Nat) (k : σ)
  | log (e : L) (k : σ)
  | tau (k : σ)
  | done

/-- General machinery, no code of /repo: a goroutine that executes one statement after another. -/
structure Seq (A L : Type) : Type 1 where
  σ : Type
  nin : Nat
  nout : Nat
  init : σ
  cap : σ → Nat → Nat
  next : σ → Cmd A L σ

/-- General machinery, no code of /repo: the steps of such a goroutine. -/
inductive SeqStep {σ : Type} (next : σ → Cmd A L σ) : σ → Lbl A L → σ → Prop where
  | recv {s : σ} {p : Nat} {k : Option A → σ} (v : A) : next s = .recv p k → SeqStep next s (.recv p v) (k (some v))
  | eof {s : σ} {p : Nat} {k : Option A → σ} : next s = .recv p k → SeqStep next s (.eof p) (k none)
  | send {s : σ} {q : Nat} {v : A} {k : σ} : next s = .send q v k → SeqStep next s (.send q v) k
  | close {s : σ} {q : Nat} {k : σ} : next s = .close q k → SeqStep next s (.close q) k
  | log {s : σ} {e : L} {k : σ} : next s = .log e k → SeqStep next s (.log e) k
  | tau {s : σ} {k : σ} : next s = .tau k → SeqStep next s .tau k

/-- General machinery, no code of /repo: such a goroutine as a component of a network. -/
def Seq.comp (P : Seq A L) : Comp A L where
  σ := P.σ
  nin := P.nin
  nout := P.nout
  init := P.init
  cap := P.cap
  step := SeqStep P.next
  done s := P.next s = .done

/-- What has to be shown of an invariant and a weight, by cases on what the goroutine does next. -/
def Seq.Ok (P : Seq A L) (spec : (Nat → List A) → (Nat → List A) → List L → Prop) (lim : Nat) (Inv : P.σ → Hist A L → Prop)
    (W : P.σ → Nat) (c : A → Nat) (s : P.σ) (h : Hist A L) : Cmd A L P.σ → Prop
  | .recv p k => p < P.nin ∧ h.eof p = false ∧
      (∀ v, ((h.ins p).length + 1 < lim → Inv (k (some v)) (h.add (.recv p v))) ∧ W (k (some v)) ≤ W s + c v) ∧
      Inv (k none) (h.add (.eof p)) ∧ W (k none) < W s
  | .send q v k => q < P.nout ∧ h.closed q = false ∧ Inv k (h.add (.send q v)) ∧ W k < W s
  | .close q k => q < P.nout ∧ h.closed q = false ∧ Inv k (h.add (.close q)) ∧ W k < W s
  | .log e k => Inv k (h.add (.log e)) ∧ W k < W s
  | .tau k => Inv k h ∧ W k < W s
  | .done => (∀ p < P.nin, h.eof p = true) ∧ (∀ q < P.nout, h.closed q = true) ∧ spec h.ins h.outs h.log

theorem small_of_add {lim : Nat} {C : Comp A L} {h : Hist A L} {l : Lbl A L} (hs : Small lim C (h.add l)) : Small lim C h := by
  intro p hp
  have := hs p hp
  cases l <;> simp only [Hist.add] at this <;> try exact this
  next p' v =>
    by_cases e : p = p'
    · subst e; simp at this; omega
    · rwa [upd_of_ne _ _ e] at this

variable {P : Seq A L} {spec : (Nat → List A) → (Nat → List A) → List L → Prop} {lim : Nat} {Inv : P.σ → Hist A L → Prop}
  {W : P.σ → Nat} {c : A → Nat}

theorem Seq.inv (h0 : Inv P.init Hist.empty) (hok : ∀ s h, Inv s h → P.Ok spec lim Inv W c s h (P.next s)) {s : P.comp.σ} {h : Hist A L}
    (hr : CReach P.comp s h) (hs : Small lim P.comp h) : Inv s h := by
  induction hr with
  | init => exact h0
  | @step s h l s' _ hst ih =>
    have hi := ih (small_of_add hs)
    have := hok s h hi
    cases hst with
    | @recv p _ v e =>
      rw [e] at this
      refine (this.2.2.1 v).1 ?_
      have := hs p this.1
      simpa [Hist.add] using this
    | eof e => rw [e] at this; exact this.2.2.2.1
    | send e => rw [e] at this; exact this.2.2.1
    | close e => rw [e] at this; exact this.2.2.1
    | log e => rw [e] at this; exact this.1
    | tau e => rw [e] at this; exact this.1

/-- An invariant and a weight show that a one goroutine component is good. -/
theorem Seq.good (hnin : P.nin ≤ 1) (h0 : Inv P.init Hist.empty) (hok : ∀ s h, Inv s h → P.Ok spec lim Inv W c s h (P.next s)) :
    Good lim P.comp spec := by
  have hI := fun s h hr hs => Seq.inv (s := s) (h := h) h0 hok hr hs
  refine ⟨?_, ?_, ?_, ?_, W, fun _ => c, ?_⟩
  · intro s h l s' hr hs hst
    have := hok s h (hI s h hr hs)
    cases hst with
    | recv _ e => rw [e] at this; exact ⟨this.1, this.2.1⟩
    | eof e => rw [e] at this; exact ⟨this.1, this.2.1⟩
    | send e => rw [e] at this; exact ⟨this.1, this.2.1⟩
    | close e => rw [e] at this; exact ⟨this.1, this.2.1⟩
    | log e => trivial
    | tau e => trivial
  · intro s h hr hs hd
    have := hok s h (hI s h hr hs)
    have hd : P.next s = .done := hd
    rw [hd] at this
    exact this
  · intro s h hr hs hnd
    have := hok s h (hI s h hr hs)
    cases e : P.next s with
    | recv p k => rw [e] at this; exact .inr ⟨p, this.1, this.2.1, fun v => ⟨_, .recv v e⟩, ⟨_, .eof e⟩⟩
    | send q v k => exact .inl ⟨_, _, .send e, rfl⟩
    | close q k => exact .inl ⟨_, _, .close e, rfl⟩
    | log q k => exact .inl ⟨_, _, .log e, rfl⟩
    | tau k => exact .inl ⟨_, _, .tau e, rfl⟩
    | done => exact absurd e hnd
  · intro s h hr hs p hp heof
    have := hok s h (hI s h hr hs)
    cases e : P.next s with
    | recv p' k =>
      rw [e] at this
      have : p' = p := by have h1 := this.1; have h2 : p < P.nin := hp; omega
      subst this
      exact .inl ⟨fun v => ⟨_, .recv v e⟩, ⟨_, .eof e⟩⟩
    | send q v k => exact .inr ⟨_, _, .send e, rfl⟩
    | close q k => exact .inr ⟨_, _, .close e, rfl⟩
    | log q k => exact .inr ⟨_, _, .log e, rfl⟩
    | tau k => exact .inr ⟨_, _, .tau e, rfl⟩
    | done => rw [e] at this; rw [this.1 p hp] at heof; simp at heof
  · intro s h l s' hr hs hst
    have := hok s h (hI s h hr hs)
    cases hst with
    | recv v e => rw [e] at this; exact (this.2.2.1 v).2
    | eof e => rw [e] at this; exact this.2.2.2.2
    | send e => rw [e] at this; exact this.2.2.2
    | close e => rw [e] at this; exact this.2.2.2
    | log e => rw [e] at this; exact this.2
    | tau e => rw [e] at this; exact this.2

/-- The part of `Seq.Ok` that concerns the invariant and the legal use of the channels. -/
def Seq.Keeps (P : Seq A L) (Inv : P.σ → Hist A L → Prop) (h : Hist A L) : Cmd A L P.σ → Prop
  | .recv p k => p < P.nin ∧ h.eof p = false ∧ (∀ v, Inv (k (some v)) (h.add (.recv p v))) ∧ Inv (k none) (h.add (.eof p))
  | .send q v k => q < P.nout ∧ h.closed q = false ∧ Inv k (h.add (.send q v))
  | .close q k => q < P.nout ∧ h.closed q = false ∧ Inv k (h.add (.close q))
  | .log e k => Inv k (h.add (.log e))
  | .tau k => Inv k h
  | .done => True

theorem Seq.keeps (h0 : Inv P.init Hist.empty) (hok : ∀ s h, Inv s h → P.Keeps Inv h (P.next s)) {s : P.comp.σ} {h : Hist A L}
    (hr : CReach P.comp s h) : Inv s h := by
  induction hr with
  | init => exact h0
  | @step s h l s' _ hst ih =>
    have := hok s h ih
    cases hst with
    | recv v e => rw [e] at this; exact this.2.2.1 v
    | eof e => rw [e] at this; exact this.2.2.2
    | send e => rw [e] at this; exact this.2.2
    | close e => rw [e] at this; exact this.2.2
    | log e => rw [e] at this; exact this
    | tau e => rw [e] at this; exact this

theorem Seq.safe (h0 : Inv P.init Hist.empty) (hok : ∀ s h, Inv s h → P.Keeps Inv h (P.next s)) : Safe lim P.comp := by
  intro s h l s' hr _ hst
  have := hok s h (Seq.keeps h0 hok hr)
  cases hst with
  | recv v e => rw [e] at this; exact ⟨this.1, this.2.1⟩
  | eof e => rw [e] at this; exact ⟨this.1, this.2.1⟩
  | send e => rw [e] at this; exact ⟨this.1, this.2.1⟩
  | close e => rw [e] at this; exact ⟨this.1, this.2.1⟩
  | log e => trivial
  | tau e => trivial

/-! ## Pipelines -/

/-- A bound on the number of values sent, from the number of values received. -/
def Grows (lim : Nat) (C : Comp A L) (g : Nat → Nat) : Prop :=
  (∀ a b, a ≤ b → g a ≤ g b) ∧ ∀ s h, CReach C s h → Small lim C h → ∀ q < C.nout, (h.outs q).length ≤ g (if C.nin = 0 then 0 else (h.ins 0).length)

/-- Everything that has to be known about a component of a pipeline. -/
def Fine (lim : Nat) (C : Comp A L) (spec : (Nat → List A) → (Nat → List A) → List L → Prop) (g : Nat → Nat) : Prop :=
  Good lim C spec ∧ Grows lim C g

theorem Seq.fine {g : Nat → Nat} (hg : ∀ a b, a ≤ b → g a ≤ g b) (hnin : P.nin ≤ 1) (h0 : Inv P.init Hist.empty)
    (hok : ∀ s h, Inv s h → P.Ok spec lim Inv W c s h (P.next s))
    (hout : ∀ s h, Inv s h → ∀ q < P.nout, (h.outs q).length ≤ g (if P.nin = 0 then 0 else (h.ins 0).length)) :
    Fine lim P.comp spec g :=
  ⟨Seq.good hnin h0 hok, hg, fun s h hr hs => hout s h (Seq.inv h0 hok hr hs)⟩

/-- A component that is not there. -/
def idle : Comp A L := ⟨Unit, 0, 0, (), fun _ _ => 0, fun _ _ _ => False, fun _ => True⟩

/-- The components of the list, each reading from the one before it. -/
def pipe (cs : List (Comp A L)) : Net A L where
  n := cs.length
  comp i := cs.getD i idle
  src i _ := (i - 1, 0)
  dst i _ := (i + 1, 0)

end Verif.Conc.Net

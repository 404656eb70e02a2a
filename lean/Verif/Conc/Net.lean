import Mathlib.Logic.Function.Basic
import Mathlib.Logic.Relation
import Mathlib.Tactic.Common
/-!
# Networks of goroutines connected by channels

A component is a group of goroutines with numbered input and output channels; every channel is written by one component and read by
one component. The channels follow Go's semantics: a send goes into the buffer if there is room, or hands the value to a waiting
receiver; sending on or closing a closed channel panics; a receive takes the oldest value, or reports the end of a closed and drained
channel.

For every acyclic network of components that are correct by themselves (`Good`) it is proved that no execution panics, every
execution is finite, it can stop only when every component has finished, and then every component has met its specification on the
complete sequence which its predecessors have sent. Components may rely on receiving fewer than `lim` values (Go's counters wrap around).
-/
namespace Verif.Conc.Net

variable {A L : Type}

/-- What a component does in one atomic step: receive a value or the end on an input port, send or close on an output port, an
observable event, an internal step. -/
inductive Lbl (A L : Type) where
  | recv (p : Nat) (v : A)
  | eof (p : Nat)
  | send (q : Nat) (v : A)
  | close (q : Nat)
  | log (e : L)
  | tau

/-- Everything except a receive. -/
def Lbl.isOut : Lbl A L → Bool
  | .recv _ _ | .eof _ => false
  | _ => true

/-- General machinery, no code of /repo: a goroutine (or several) with channels as inputs and outputs: its states and steps. -/
structure Comp (A L : Type) : Type 1 where
  σ : Type
  nin : Nat
  nout : Nat
  init : σ
  /-- capacity of an output channel -/
  cap : σ → Nat → Nat
  step : σ → Lbl A L → σ → Prop
  /-- all goroutines of the component have ended -/
  done : σ → Prop

/-- What has happened at the ports of a component. -/
structure Hist (A L : Type) where
  ins : Nat → List A
  eof : Nat → Bool
  outs : Nat → List A
  closed : Nat → Bool
  log : List L

/-- General machinery, no code of /repo: change of one value of a function. -/
def upd {X : Type} (f : Nat → X) (i : Nat) (x : X) : Nat → X := fun j => if j = i then x else f j

@[simp] theorem upd_self {X : Type} (f : Nat → X) (i : Nat) (x : X) : upd f i x i = x := by simp [upd]
theorem upd_of_ne {X : Type} (f : Nat → X) {i j : Nat} (x : X) (h : j ≠ i) : upd f i x j = f j := by simp [upd, h]

/-- Nothing has happened yet. -/
def Hist.empty : Hist A L := ⟨fun _ => [], fun _ => false, fun _ => [], fun _ => false, []⟩

/-- What has happened after one more step. -/
def Hist.add (h : Hist A L) : Lbl A L → Hist A L
  | .recv p v => { h with ins := upd h.ins p (h.ins p ++ [v]) }
  | .eof p => { h with eof := upd h.eof p true }
  | .send q v => { h with outs := upd h.outs q (h.outs q ++ [v]) }
  | .close q => { h with closed := upd h.closed q true }
  | .log e => { h with log := h.log ++ [e] }
  | .tau => h

/-- States a component can reach in any environment, with what has happened. -/
inductive CReach (C : Comp A L) : C.σ → Hist A L → Prop where
  | init : CReach C C.init Hist.empty
  | step {s : C.σ} {h : Hist A L} {l : Lbl A L} {s' : C.σ} : CReach C s h → C.step s l s' → CReach C s' (h.add l)

/-- The step is a legal use of the channels. -/
def Legal (C : Comp A L) (h : Hist A L) : Lbl A L → Prop
  | .recv p _ | .eof p => p < C.nin ∧ h.eof p = false
  | .send q _ | .close q => q < C.nout ∧ h.closed q = false
  | _ => True

/-- The component waits for input on port `p`. -/
def Ready (C : Comp A L) (s : C.σ) (p : Nat) : Prop := (∀ v, ∃ s', C.step s (.recv p v) s') ∧ ∃ s', C.step s (.eof p) s'

/-- The component can do something other than receiving (a send may have to wait). -/
def Active (C : Comp A L) (s : C.σ) : Prop := ∃ l s', C.step s l s' ∧ l.isOut = true

/-- Fewer than `lim` values have been received on every input. -/
def Small (lim : Nat) (C : Comp A L) (h : Hist A L) : Prop := ∀ p < C.nin, (h.ins p).length < lim

/-- Correctness of a component by itself, in every environment, as long as it receives fewer than `lim` values. -/
structure Good (lim : Nat) (C : Comp A L) (spec : (Nat → List A) → (Nat → List A) → List L → Prop) : Prop where
  /-- it never sends on or closes a closed channel, and does not receive after the end -/
  safe : ∀ s h l s', CReach C s h → Small lim C h → C.step s l s' → Legal C h l
  /-- when it has finished, its input has ended, its outputs are closed and the specification holds -/
  fin : ∀ s h, CReach C s h → Small lim C h → C.done s →
    (∀ p < C.nin, h.eof p = true) ∧ (∀ q < C.nout, h.closed q = true) ∧ spec h.ins h.outs h.log
  /-- before that it is active or waits for input -/
  live : ∀ s h, CReach C s h → Small lim C h → ¬ C.done s → Active C s ∨ ∃ p < C.nin, h.eof p = false ∧ Ready C s p
  /-- it refuses input only while it is active -/
  accept : ∀ s h, CReach C s h → Small lim C h → ∀ p < C.nin, h.eof p = false → Ready C s p ∨ Active C s
  /-- only receiving can keep it running -/
  weight : ∃ (W : C.σ → Nat) (c : Nat → A → Nat), ∀ s h l s', CReach C s h → Small lim C h → C.step s l s' →
    match l with
    | .recv p v => W s' ≤ W s + c p v
    | _ => W s' < W s

/-- It uses its channels legally (the first part of `Good`). -/
def Safe (lim : Nat) (C : Comp A L) : Prop := ∀ s h l s', CReach C s h → Small lim C h → C.step s l s' → Legal C h l

/-- A network: components `0 … n-1`; `src i p` is the component and output port that input port `p` of component `i` reads from,
`dst` is its inverse. -/
structure Net (A L : Type) : Type 1 where
  n : Nat
  comp : Nat → Comp A L
  src : Nat → Nat → Nat × Nat
  dst : Nat → Nat → Nat × Nat

/-- Every input is connected to an output of an earlier component and every output to an input. -/
structure Net.WF (N : Net A L) : Prop where
  hsrc : ∀ i < N.n, ∀ p < (N.comp i).nin, (N.src i p).1 < i ∧ (N.src i p).2 < (N.comp (N.src i p).1).nout ∧
    N.dst (N.src i p).1 (N.src i p).2 = (i, p)
  hdst : ∀ i < N.n, ∀ q < (N.comp i).nout, (N.dst i q).1 < N.n ∧ (N.dst i q).2 < (N.comp (N.dst i q).1).nin ∧
    N.src (N.dst i q).1 (N.dst i q).2 = (i, q)

/-- `b i q` bounds the number of values which component `i` sends on output `q`, given that its own inputs respect their bounds. -/
structure Net.Bounded (N : Net A L) (lim : Nat) (b : Nat → Nat → Nat) : Prop where
  lt : ∀ i < N.n, ∀ q < (N.comp i).nout, b i q < lim
  out : ∀ i < N.n, ∀ s h, CReach (N.comp i) s h → Small lim (N.comp i) h → (∀ p < (N.comp i).nin, (h.ins p).length ≤ b (N.src i p).1 (N.src i p).2) →
    ∀ q < (N.comp i).nout, (h.outs q).length ≤ b i q

/-- General machinery, no code of /repo: a state of a network: the states of its components and the contents of its channels. -/
structure NState (N : Net A L) where
  st : (i : Nat) → (N.comp i).σ
  /-- the buffer of the channel of output `q` of component `i` -/
  buf : Nat → Nat → List A
  closed : Nat → Nat → Bool
  /-- an unrecovered panic -/
  crashed : Bool
  /-- history variable -/
  hist : Nat → Hist A L

variable {N : Net A L}

/-- General machinery, no code of /repo: change of one value of a function of two arguments. -/
def upd2 {X : Type} (f : Nat → Nat → X) (i q : Nat) (x : X) : Nat → Nat → X := fun i' q' => if i' = i ∧ q' = q then x else f i' q'

/-- The component `i` makes a step. -/
def NState.move (m : NState N) (i : Nat) (l : Lbl A L) (s' : (N.comp i).σ) : NState N :=
  { m with st := Function.update m.st i s', hist := upd m.hist i ((m.hist i).add l) }

/-- All interleavings. -/
inductive NStep : NState N → NState N → Prop where
  | log (m : NState N) (i : Nat) (e : L) (s' : (N.comp i).σ) : m.crashed = false → i < N.n → (N.comp i).step (m.st i) (.log e) s' →
      NStep m (m.move i (.log e) s')
  | tau (m : NState N) (i : Nat) (s' : (N.comp i).σ) : m.crashed = false → i < N.n → (N.comp i).step (m.st i) .tau s' →
      NStep m (m.move i .tau s')
  /-- a send into the buffer -/
  | send (m : NState N) (i q : Nat) (v : A) (s' : (N.comp i).σ) : m.crashed = false → i < N.n → (N.comp i).step (m.st i) (.send q v) s' →
      m.closed i q = false → (m.buf i q).length < (N.comp i).cap (m.st i) q →
      NStep m { m.move i (.send q v) s' with buf := upd2 m.buf i q (m.buf i q ++ [v]) }
  /-- a send to a waiting receiver -/
  | meet (m : NState N) (i q : Nat) (v : A) (s' : (N.comp i).σ) (s'' : (N.comp (N.dst i q).1).σ) : m.crashed = false → i < N.n →
      (N.comp i).step (m.st i) (.send q v) s' → m.closed i q = false → m.buf i q = [] → i ≠ (N.dst i q).1 → (N.dst i q).1 < N.n →
      (N.comp (N.dst i q).1).step (m.st (N.dst i q).1) (.recv (N.dst i q).2 v) s'' →
      NStep m ((m.move i (.send q v) s').move (N.dst i q).1 (.recv (N.dst i q).2 v) s'')
  | sendPanic (m : NState N) (i q : Nat) (v : A) (s' : (N.comp i).σ) : m.crashed = false → i < N.n → (N.comp i).step (m.st i) (.send q v) s' →
      m.closed i q = true → NStep m { m with crashed := true }
  | close (m : NState N) (i q : Nat) (s' : (N.comp i).σ) : m.crashed = false → i < N.n → (N.comp i).step (m.st i) (.close q) s' →
      m.closed i q = false → NStep m { m.move i (.close q) s' with closed := upd2 m.closed i q true }
  | closePanic (m : NState N) (i q : Nat) (s' : (N.comp i).σ) : m.crashed = false → i < N.n → (N.comp i).step (m.st i) (.close q) s' →
      m.closed i q = true → NStep m { m with crashed := true }
  | recv (m : NState N) (i p : Nat) (v : A) (vs : List A) (s' : (N.comp i).σ) : m.crashed = false → i < N.n →
      (N.comp i).step (m.st i) (.recv p v) s' → m.buf (N.src i p).1 (N.src i p).2 = v :: vs →
      NStep m { m.move i (.recv p v) s' with buf := upd2 m.buf (N.src i p).1 (N.src i p).2 vs }
  | eof (m : NState N) (i p : Nat) (s' : (N.comp i).σ) : m.crashed = false → i < N.n →
      (N.comp i).step (m.st i) (.eof p) s' → m.buf (N.src i p).1 (N.src i p).2 = [] → m.closed (N.src i p).1 (N.src i p).2 = true →
      NStep m (m.move i (.eof p) s')

/-- General machinery, no code of /repo: a network at the start. -/
def NState.init (N : Net A L) : NState N := ⟨fun i => (N.comp i).init, fun _ _ => [], fun _ _ => false, false, fun _ => Hist.empty⟩

/-- General machinery, no code of /repo: the reachable states of a network. -/
inductive NReach (N : Net A L) : NState N → Prop where
  | init : NReach N (NState.init N)
  | step {m m' : NState N} : NReach N m → NStep m m' → NReach N m'

/-! ## Invariant -/

/-- Proof only: invariant of networks. -/
structure NInv (m : NState N) : Prop where
  ok : m.crashed = false
  reach : ∀ i < N.n, CReach (N.comp i) (m.st i) (m.hist i)
  cl : ∀ i < N.n, ∀ q < (N.comp i).nout, m.closed i q = (m.hist i).closed q
  chan : ∀ i < N.n, ∀ q < (N.comp i).nout, (m.hist i).outs q = (m.hist (N.dst i q).1).ins (N.dst i q).2 ++ m.buf i q
  eofs : ∀ i < N.n, ∀ q < (N.comp i).nout, (m.hist (N.dst i q).1).eof (N.dst i q).2 = true → m.closed i q = true ∧ m.buf i q = []

variable {lim : Nat} {b : Nat → Nat → Nat} {specs : Nat → (Nat → List A) → (Nat → List A) → List L → Prop}

theorem inv_init (N : Net A L) : NInv (NState.init N) :=
  ⟨rfl, fun _ _ => .init, fun _ _ _ _ => rfl, fun _ _ _ _ => rfl, fun _ _ _ _ h => by simp [NState.init, Hist.empty] at h⟩

theorem move_reach {m : NState N} (h : NInv m) {i : Nat} {l : Lbl A L} {s' : (N.comp i).σ} (hs : (N.comp i).step (m.st i) l s') :
    ∀ j < N.n, CReach (N.comp j) ((m.move i l s').st j) ((m.move i l s').hist j) := by
  intro j hj
  by_cases e : j = i
  · subst e
    simp only [NState.move, Function.update_self, upd_self]
    exact .step (h.reach j hj) hs
  · simp only [NState.move, Function.update_of_ne e, upd_of_ne _ _ e]
    exact h.reach j hj

theorem move_hist (m : NState N) (i : Nat) (l : Lbl A L) (s' : (N.comp i).σ) (j : Nat) :
    (m.move i l s').hist j = if j = i then (m.hist i).add l else m.hist j := rfl

/-- The bounds hold in every state that satisfies the invariant. -/
theorem bounds (hN : N.WF) (hB : N.Bounded lim b) {m : NState N} (h : NInv m) : ∀ i < N.n, ∀ q < (N.comp i).nout,
    ((m.hist i).outs q).length ≤ b i q := by
  intro i
  induction i using Nat.strongRecOn with
  | ind i ih =>
    intro hi q hq
    have key : ∀ p < (N.comp i).nin, ((m.hist i).ins p).length ≤ b (N.src i p).1 (N.src i p).2 ∧ b (N.src i p).1 (N.src i p).2 < lim := by
      intro p hp
      obtain ⟨s1, s2, s3⟩ := hN.hsrc i hi p hp
      have hk : (N.src i p).1 < N.n := by omega
      have h1 := ih _ s1 hk _ s2
      have h2 := h.chan _ hk _ s2
      rw [s3] at h2
      rw [h2, List.length_append] at h1
      simp only at h1
      exact ⟨by omega, hB.lt _ hk _ s2⟩
    exact hB.out i hi _ _ (h.reach i hi) (fun p hp => by have := key p hp; omega) (fun p hp => (key p hp).1) q hq

theorem small (hN : N.WF) (hB : N.Bounded lim b) {m : NState N} (h : NInv m) : ∀ i < N.n, Small lim (N.comp i) (m.hist i) := by
  intro i hi p hp
  obtain ⟨s1, s2, s3⟩ := hN.hsrc i hi p hp
  have hk : (N.src i p).1 < N.n := by omega
  have h1 := bounds hN hB h _ hk _ s2
  have h3 := hB.lt _ hk _ s2
  have h2 := h.chan _ hk _ s2
  rw [s3] at h2
  rw [h2, List.length_append] at h1
  simp only at h1
  omega

theorem inv_step (hN : N.WF) (hg : ∀ i < N.n, Safe lim (N.comp i)) {m m' : NState N} (h : NInv m) (hsm : ∀ i < N.n, Small lim (N.comp i) (m.hist i)) (hs : NStep m m') : NInv m' := by
  have hr := h.reach
  have hlegal : ∀ i < N.n, ∀ l s', (N.comp i).step (m.st i) l s' → Legal (N.comp i) (m.hist i) l :=
    fun i hi l s' hst => hg i hi _ _ _ _ (hr i hi) (hsm i hi) hst
  cases hs with
  | log i e s' _ hi hst =>
    refine ⟨h.ok, move_reach h hst, ?_, ?_, ?_⟩ <;> intro j hj q hq <;> simp only [move_hist]
    · rw [show (m.move i (.log e) s').closed = m.closed from rfl, h.cl j hj q hq]; split <;> simp_all [Hist.add]
    · rw [show (m.move i (.log e) s').buf = m.buf from rfl]
      have := h.chan j hj q hq
      split <;> split <;> simp_all [Hist.add]
    · rw [show (m.move i (.log e) s').buf = m.buf from rfl, show (m.move i (.log e) s').closed = m.closed from rfl]
      have := h.eofs j hj q hq
      split <;> simp_all [Hist.add]
  | tau i s' _ hi hst =>
    refine ⟨h.ok, move_reach h hst, ?_, ?_, ?_⟩ <;> intro j hj q hq <;> simp only [move_hist]
    · rw [show (m.move i .tau s').closed = m.closed from rfl, h.cl j hj q hq]; split <;> simp_all [Hist.add]
    · rw [show (m.move i .tau s').buf = m.buf from rfl]
      have := h.chan j hj q hq
      split <;> split <;> simp_all [Hist.add]
    · rw [show (m.move i .tau s').buf = m.buf from rfl, show (m.move i .tau s').closed = m.closed from rfl]
      have := h.eofs j hj q hq
      split <;> simp_all [Hist.add]
  | send i q v s' _ hi hst hc hb =>
    obtain ⟨hq0, _⟩ := hlegal i hi _ _ hst
    refine ⟨h.ok, move_reach h hst, ?_, ?_, ?_⟩ <;> intro j hj q' hq' <;> simp only [move_hist]
    · rw [show (m.move i (.send q v) s').closed = m.closed from rfl, h.cl j hj q' hq']; split <;> simp_all [Hist.add]
    · have hch := h.chan j hj q' hq'
      have hd := hN.hdst j hj q' hq'
      have hins : (if (N.dst j q').1 = i then (m.hist i).add (.send q v) else m.hist (N.dst j q').1).ins = (m.hist (N.dst j q').1).ins := by
        split
        · next e => rw [e]; rfl
        · rfl
      rw [hins]
      by_cases e : j = i
      · subst e
        by_cases eq : q' = q
        · subst eq; simp [upd2, Hist.add, hch]
        · simp [upd2, Hist.add, upd_of_ne _ _ eq, eq, hch]
      · simp [upd2, e, hch]
    · have heo := h.eofs j hj q' hq'
      have hce : (if (N.dst j q').1 = i then (m.hist i).add (.send q v) else m.hist (N.dst j q').1).eof = (m.hist (N.dst j q').1).eof := by
        split
        · next e => rw [e]; rfl
        · rfl
      rw [hce, show (m.move i (.send q v) s').closed = m.closed from rfl]
      intro hh
      have := heo hh
      by_cases e : j = i ∧ q' = q
      · obtain ⟨rfl, rfl⟩ := e
        rw [this.1] at hc; simp at hc
      · simp only [upd2, if_neg e]; exact this
  | meet i q v s' s'' _ hi hst hc hb hne hj hst2 =>
    obtain ⟨hq0, _⟩ := hlegal i hi _ _ hst
    obtain ⟨hp0, hpe⟩ := hlegal _ hj _ _ hst2
    obtain ⟨d1, d2, d3⟩ := hN.hdst i hi q hq0
    have hst2' : (N.comp (N.dst i q).1).step ((m.move i (.send q v) s').st (N.dst i q).1) (.recv (N.dst i q).2 v) s'' := by
      have : (m.move i (.send q v) s').st (N.dst i q).1 = m.st (N.dst i q).1 := by
        simp only [NState.move, Function.update_of_ne (Ne.symm hne)]
      rw [this]; exact hst2
    have hh2 : ((m.move i (.send q v) s').hist (N.dst i q).1) = m.hist (N.dst i q).1 := by
      simp [move_hist, Ne.symm hne]
    refine ⟨h.ok, ?_, ?_, ?_, ?_⟩
    · intro j' hj'
      by_cases e : j' = (N.dst i q).1
      · subst e
        simp only [NState.move, Function.update_self, upd_self, upd_of_ne _ _ (Ne.symm hne)]
        exact .step (hr _ hj') hst2
      · have := move_reach h hst j' hj'
        simp only [NState.move, Function.update_of_ne e, upd_of_ne _ _ e] at this ⊢
        exact this
    all_goals intro j' hj' q' hq'; simp only [move_hist]
    · rw [show ((m.move i (.send q v) s').move (N.dst i q).1 (.recv (N.dst i q).2 v) s'').closed = m.closed from rfl, h.cl j' hj' q' hq']
      split
      · next e => subst e; simp [Hist.add, Ne.symm hne]
      · split
        · next e => subst e; simp [Hist.add]
        · rfl
    · rw [show ((m.move i (.send q v) s').move (N.dst i q).1 (.recv (N.dst i q).2 v) s'').buf = m.buf from rfl]
      have hch := h.chan j' hj' q' hq'
      obtain ⟨e1, e2, e3⟩ := hN.hdst j' hj' q' hq'
      have hout : (if j' = (N.dst i q).1 then (if (N.dst i q).1 = i then (m.hist i).add (.send q v) else m.hist (N.dst i q).1).add (.recv (N.dst i q).2 v)
          else if j' = i then (m.hist i).add (.send q v) else m.hist j').outs q' = if j' = i ∧ q' = q then (m.hist i).outs q ++ [v] else (m.hist j').outs q' := by
        split
        · next e =>
          have : j' ≠ i := by rw [e]; exact Ne.symm hne
          rw [if_neg (Ne.symm hne), if_neg (fun hh => this hh.1), ← e]; rfl
        · split
          · next e =>
            subst e
            by_cases eq : q' = q
            · subst eq; simp [Hist.add]
            · simp [Hist.add, upd_of_ne _ _ eq, eq]
          · next e => rw [if_neg (fun hh => e hh.1)]
      have hin : (if (N.dst j' q').1 = (N.dst i q).1 then (if (N.dst i q).1 = i then (m.hist i).add (.send q v) else m.hist (N.dst i q).1).add (.recv (N.dst i q).2 v)
          else if (N.dst j' q').1 = i then (m.hist i).add (.send q v) else m.hist (N.dst j' q').1).ins (N.dst j' q').2 =
            if j' = i ∧ q' = q then (m.hist (N.dst i q).1).ins (N.dst i q).2 ++ [v] else (m.hist (N.dst j' q').1).ins (N.dst j' q').2 := by
        split
        · next e =>
          rw [if_neg (Ne.symm hne)]
          by_cases e2 : (N.dst j' q').2 = (N.dst i q).2
          · have : N.src (N.dst j' q').1 (N.dst j' q').2 = N.src (N.dst i q).1 (N.dst i q).2 := by rw [e, e2]
            rw [e3, d3] at this
            obtain ⟨rfl, rfl⟩ := Prod.mk.injEq .. ▸ this
            simp [Hist.add]
          · have : ¬ (j' = i ∧ q' = q) := by rintro ⟨rfl, rfl⟩; exact e2 rfl
            rw [if_neg this, e]
            simp [Hist.add, upd_of_ne _ _ e2]
        · next e =>
          have : ¬ (j' = i ∧ q' = q) := by rintro ⟨rfl, rfl⟩; exact e rfl
          rw [if_neg this]
          split
          · next e' => rw [e']; rfl
          · rfl
      rw [hout, hin]
      split
      · next e =>
        obtain ⟨rfl, rfl⟩ := e
        rw [hch, hb]; simp
      · exact hch
    · rw [show ((m.move i (.send q v) s').move (N.dst i q).1 (.recv (N.dst i q).2 v) s'').buf = m.buf from rfl,
        show ((m.move i (.send q v) s').move (N.dst i q).1 (.recv (N.dst i q).2 v) s'').closed = m.closed from rfl]
      have heo := h.eofs j' hj' q' hq'
      have : (if (N.dst j' q').1 = (N.dst i q).1 then (if (N.dst i q).1 = i then (m.hist i).add (.send q v) else m.hist (N.dst i q).1).add (.recv (N.dst i q).2 v)
          else if (N.dst j' q').1 = i then (m.hist i).add (.send q v) else m.hist (N.dst j' q').1).eof = (m.hist (N.dst j' q').1).eof := by
        split
        · next e => rw [if_neg (Ne.symm hne), e]; rfl
        · split
          · next e => rw [e]; rfl
          · rfl
      rw [this]; exact heo
  | sendPanic i q v s' _ hi hst hc =>
    obtain ⟨hq0, hcl⟩ := hlegal i hi _ _ hst
    rw [h.cl i hi q hq0, hcl] at hc; simp at hc
  | close i q s' _ hi hst hc =>
    obtain ⟨hq0, _⟩ := hlegal i hi _ _ hst
    refine ⟨h.ok, move_reach h hst, ?_, ?_, ?_⟩ <;> intro j hj q' hq' <;> simp only [move_hist]
    · have hcl := h.cl j hj q' hq'
      by_cases e : j = i
      · subst e
        by_cases eq : q' = q
        · subst eq; simp [upd2, Hist.add]
        · simp [upd2, Hist.add, upd_of_ne _ _ eq, eq, hcl]
      · simp [upd2, e, hcl]
    · rw [show (m.move i (.close q) s').buf = m.buf from rfl]
      have := h.chan j hj q' hq'
      split <;> split <;> simp_all [Hist.add]
    · rw [show (m.move i (.close q) s').buf = m.buf from rfl]
      have heo := h.eofs j hj q' hq'
      have hce : (if (N.dst j q').1 = i then (m.hist i).add (.close q) else m.hist (N.dst j q').1).eof = (m.hist (N.dst j q').1).eof := by
        split
        · next e => rw [e]; rfl
        · rfl
      rw [hce]
      intro hh
      have := heo hh
      refine ⟨?_, this.2⟩
      simp only [upd2]
      split
      · rfl
      · exact this.1
  | closePanic i q s' _ hi hst hc =>
    obtain ⟨hq0, hcl⟩ := hlegal i hi _ _ hst
    rw [h.cl i hi q hq0, hcl] at hc; simp at hc
  | recv i p v vs s' _ hi hst hb =>
    obtain ⟨hp0, hpe⟩ := hlegal i hi _ _ hst
    obtain ⟨s1, s2, s3⟩ := hN.hsrc i hi p hp0
    have hsn : (N.src i p).1 < N.n := by omega
    refine ⟨h.ok, move_reach h hst, ?_, ?_, ?_⟩ <;> intro j hj q' hq' <;> simp only [move_hist]
    · rw [show (m.move i (.recv p v) s').closed = m.closed from rfl, h.cl j hj q' hq']; split <;> simp_all [Hist.add]
    · have hch := h.chan j hj q' hq'
      obtain ⟨e1, e2, e3⟩ := hN.hdst j hj q' hq'
      have hout : (if j = i then (m.hist i).add (.recv p v) else m.hist j).outs = (m.hist j).outs := by
        split
        · next e => rw [e]; rfl
        · rfl
      rw [hout, hch]
      by_cases e : j = (N.src i p).1 ∧ q' = (N.src i p).2
      · obtain ⟨rfl, rfl⟩ := e
        rw [s3, hb]
        simp [upd2, Hist.add]
      · have : ¬ ((N.dst j q').1 = i ∧ (N.dst j q').2 = p) := by
          rintro ⟨a1, a2⟩
          rw [a1, a2] at e3
          exact e ⟨by rw [e3], by rw [e3]⟩
        simp only [upd2, if_neg e]
        split
        · next e' =>
          have : (N.dst j q').2 ≠ p := fun hh => this ⟨e', hh⟩
          simp [Hist.add, upd_of_ne _ _ this, e']
        · rfl
    · have heo := h.eofs j hj q' hq'
      have hce : (if (N.dst j q').1 = i then (m.hist i).add (.recv p v) else m.hist (N.dst j q').1).eof = (m.hist (N.dst j q').1).eof := by
        split
        · next e => rw [e]; rfl
        · rfl
      rw [hce, show (m.move i (.recv p v) s').closed = m.closed from rfl]
      intro hh
      have := heo hh
      refine ⟨this.1, ?_⟩
      simp only [upd2]
      split
      · next e => obtain ⟨rfl, rfl⟩ := e; rw [hb] at this; simp at this
      · exact this.2
  | eof i p s' _ hi hst hb hc =>
    obtain ⟨hp0, hpe⟩ := hlegal i hi _ _ hst
    obtain ⟨s1, s2, s3⟩ := hN.hsrc i hi p hp0
    refine ⟨h.ok, move_reach h hst, ?_, ?_, ?_⟩ <;> intro j hj q' hq' <;> simp only [move_hist]
    · rw [show (m.move i (.eof p) s').closed = m.closed from rfl, h.cl j hj q' hq']; split <;> simp_all [Hist.add]
    · rw [show (m.move i (.eof p) s').buf = m.buf from rfl]
      have := h.chan j hj q' hq'
      split <;> split <;> simp_all [Hist.add]
    · rw [show (m.move i (.eof p) s').buf = m.buf from rfl, show (m.move i (.eof p) s').closed = m.closed from rfl]
      have heo := h.eofs j hj q' hq'
      obtain ⟨e1, e2, e3⟩ := hN.hdst j hj q' hq'
      intro hh
      by_cases e : (N.dst j q').1 = i ∧ (N.dst j q').2 = p
      · rw [e.1, e.2] at e3
        have e4 : (N.src i p).1 = j := by rw [e3]
        have e5 : (N.src i p).2 = q' := by rw [e3]
        rw [e4, e5] at hb hc
        exact ⟨hc, hb⟩
      · apply heo
        revert hh
        split
        · next e' =>
          have : (N.dst j q').2 ≠ p := fun hh => e ⟨e', hh⟩
          simp [Hist.add, upd_of_ne _ _ this, e']
        · exact id

/-- The invariant needs only that the components use their channels legally. -/
theorem inv_safe (hN : N.WF) (hS : ∀ m, NReach N m → ∀ i < N.n, Small lim (N.comp i) (m.hist i)) (hg : ∀ i < N.n, Safe lim (N.comp i)) {m : NState N} (h : NReach N m) : NInv m := by
  induction h with
  | init => exact inv_init N
  | step hm hs ih => exact inv_step hN hg ih (hS _ hm) hs

theorem inv (hN : N.WF) (hS : ∀ m, NReach N m → ∀ i < N.n, Small lim (N.comp i) (m.hist i)) (hg : ∀ i < N.n, Good lim (N.comp i) (specs i)) {m : NState N} (h : NReach N m) : NInv m :=
  inv_safe hN hS (fun i hi => (hg i hi).safe) h

/-- Bounds on the components imply that the network stays small. -/
theorem small_of_safe (hN : N.WF) (hB : N.Bounded lim b) (hg : ∀ i < N.n, Safe lim (N.comp i)) :
    ∀ m, NReach N m → ∀ i < N.n, Small lim (N.comp i) (m.hist i) := by
  have : ∀ m, NReach N m → NInv m := by
    intro m h
    induction h with
    | init => exact inv_init N
    | step _ hs ih => exact inv_step hN hg ih (small hN hB ih) hs
  exact fun m h => small hN hB (this m h)

theorem small_of_bounded (hN : N.WF) (hB : N.Bounded lim b) (hg : ∀ i < N.n, Good lim (N.comp i) (specs i)) :
    ∀ m, NReach N m → ∀ i < N.n, Small lim (N.comp i) (m.hist i) :=
  small_of_safe hN hB fun i hi => (hg i hi).safe

/-! ## No deadlock -/

theorem stuck_inactive (hN : N.WF) (hg : ∀ i < N.n, Good lim (N.comp i) (specs i)) {m : NState N} (h : NInv m) (hsm : ∀ i < N.n, Small lim (N.comp i) (m.hist i)) (hstuck : ∀ m', ¬ NStep m m') :
    ∀ k i, N.n - i = k → i < N.n → ¬ Active (N.comp i) (m.st i) := by
  intro k
  induction k using Nat.strongRecOn with
  | ind k ih =>
    rintro i hk hi ⟨l, s', hst, hl⟩
    have hleg := (hg i hi).safe _ _ _ _ (h.reach i hi) (hsm i hi) hst
    cases l with
    | recv p v => simp [Lbl.isOut] at hl
    | eof p => simp [Lbl.isOut] at hl
    | log e => exact hstuck _ (.log m i e s' h.ok hi hst)
    | tau => exact hstuck _ (.tau m i s' h.ok hi hst)
    | close q => exact hstuck _ (.close m i q s' h.ok hi hst (by rw [h.cl i hi q hleg.1]; exact hleg.2))
    | send q v =>
      have hc : m.closed i q = false := by rw [h.cl i hi q hleg.1]; exact hleg.2
      obtain ⟨d1, d2, d3⟩ := hN.hdst i hi q hleg.1
      have hlt : i < (N.dst i q).1 := by
        have := (hN.hsrc _ d1 _ d2).1
        rw [d3] at this; exact this
      have heof : (m.hist (N.dst i q).1).eof (N.dst i q).2 = false := by
        cases e : (m.hist (N.dst i q).1).eof (N.dst i q).2 with
        | false => rfl
        | true => have := (h.eofs i hi q hleg.1 e).1; rw [hc] at this; simp at this
      rcases (hg _ d1).accept _ _ (h.reach _ d1) (hsm _ d1) _ d2 heof with hrd | hac
      · cases hb : m.buf i q with
        | nil =>
          obtain ⟨s'', hs''⟩ := hrd.1 v
          exact hstuck _ (.meet m i q v s' s'' h.ok hi hst hc hb (by omega) d1 hs'')
        | cons w ws =>
          obtain ⟨s'', hs''⟩ := hrd.1 w
          exact hstuck _ (.recv m _ _ w ws s'' h.ok d1 hs'' (by rw [d3]; exact hb))
      · exact ih (N.n - (N.dst i q).1) (by omega) _ rfl d1 hac

/-- An execution can stop only when every component has finished. -/
theorem stuck_done (hN : N.WF) (hS : ∀ m, NReach N m → ∀ i < N.n, Small lim (N.comp i) (m.hist i)) (hg : ∀ i < N.n, Good lim (N.comp i) (specs i)) {m : NState N} (h : NReach N m) (hstuck : ∀ m', ¬ NStep m m') :
    ∀ i < N.n, (N.comp i).done (m.st i) := by
  have hinv := inv hN hS hg h
  have hna := fun i => stuck_inactive hN hg hinv (hS m h) hstuck (N.n - i) i rfl
  intro i
  induction i using Nat.strongRecOn with
  | ind i ih =>
    intro hi
    by_contra hnd
    rcases (hg i hi).live _ _ (hinv.reach i hi) (hS m h i hi) hnd with hac | ⟨p, hp, heof, hrd⟩
    · exact hna i hi hac
    · obtain ⟨s1, s2, s3⟩ := hN.hsrc i hi p hp
      have hk : (N.src i p).1 < N.n := by omega
      have hdone := ih _ s1 hk
      have hcl := ((hg _ hk).fin _ _ (hinv.reach _ hk) (hS m h _ hk) hdone).2.1 _ s2
      rw [← hinv.cl _ hk _ s2] at hcl
      cases hb : m.buf (N.src i p).1 (N.src i p).2 with
      | cons w ws =>
        obtain ⟨s'', hs''⟩ := hrd.1 w
        exact hstuck _ (.recv m i p w ws s'' hinv.ok hi hs'' hb)
      | nil =>
        obtain ⟨s'', hs''⟩ := hrd.2
        exact hstuck _ (.eof m i p s'' hinv.ok hi hs'' hb hcl)

/-- When every component has finished, each has met its specification on the whole sequences its predecessors have sent. -/
theorem final (hN : N.WF) (hS : ∀ m, NReach N m → ∀ i < N.n, Small lim (N.comp i) (m.hist i)) (hg : ∀ i < N.n, Good lim (N.comp i) (specs i)) {m : NState N} (h : NReach N m)
    (hd : ∀ i < N.n, (N.comp i).done (m.st i)) :
    (∀ i < N.n, specs i (m.hist i).ins (m.hist i).outs (m.hist i).log) ∧
    ∀ i < N.n, ∀ p < (N.comp i).nin, (m.hist i).ins p = (m.hist (N.src i p).1).outs (N.src i p).2 := by
  have hinv := inv hN hS hg h
  refine ⟨fun i hi => ((hg i hi).fin _ _ (hinv.reach i hi) (hS m h i hi) (hd i hi)).2.2, ?_⟩
  intro i hi p hp
  obtain ⟨s1, s2, s3⟩ := hN.hsrc i hi p hp
  have hk : (N.src i p).1 < N.n := by omega
  have hch := hinv.chan _ hk _ s2
  have heo := hinv.eofs _ hk _ s2
  rw [s3] at hch heo
  have := (heo (((hg i hi).fin _ _ (hinv.reach i hi) (hS m h i hi) (hd i hi)).1 p hp)).2
  rw [this] at hch
  simpa using hch.symm

/-! ## Every execution is finite -/

/-- Proof only: the lexicographic order of the first `n` values. -/
def LexLt (n : Nat) (a b : Nat → Nat) : Prop := ∃ i < n, (∀ j < i, a j = b j) ∧ a i < b i

theorem lexLt_wf (n : Nat) : WellFounded (LexLt n) := by
  induction n with
  | zero => exact ⟨fun a => ⟨a, fun b ⟨i, hi, _⟩ => absurd hi (by omega)⟩⟩
  | succ n ih =>
    have hw : WellFounded (InvImage (Prod.Lex (· < · : Nat → Nat → Prop) (LexLt n)) (fun a : Nat → Nat => (a 0, fun j => a (j+1)))) :=
      InvImage.wf _ (Prod.lex Nat.lt_wfRel ⟨_, ih⟩).wf
    refine Subrelation.wf ?_ hw
    rintro a b ⟨i, hi, heq, hlt⟩
    cases i with
    | zero => exact Prod.Lex.left _ _ hlt
    | succ i =>
      simp only [InvImage]
      rw [heq 0 (by omega)]
      exact Prod.Lex.right _ ⟨i, by omega, fun j hj => heq (j+1) (by omega), hlt⟩

/-- Proof only: the sum of the first values. -/
def sumTo (f : Nat → Nat) : Nat → Nat
  | 0 => 0
  | n + 1 => sumTo f n + f n

theorem sumTo_congr {f g : Nat → Nat} {n : Nat} (h : ∀ p < n, f p = g p) : sumTo f n = sumTo g n := by
  induction n with
  | zero => rfl
  | succ n ih => simp only [sumTo]; rw [ih fun p hp => h p (by omega), h n (by omega)]

theorem sumTo_one {f g : Nat → Nat} {n p : Nat} (hp : p < n) (h : ∀ p' < n, p' ≠ p → f p' = g p') : sumTo f n + g p = sumTo g n + f p := by
  induction n with
  | zero => omega
  | succ n ih =>
    simp only [sumTo]
    by_cases e : p = n
    · subst e
      rw [sumTo_congr (f := f) (g := g) fun p' hp' => h p' (by omega) (by omega)]; omega
    · have := ih (by omega) fun p' hp' hne => h p' (by omega) hne
      have := h n (by omega) (fun e' => e e'.symm)
      omega

/-- The weight of a component with what is waiting for it in its input channels. -/
def load (W : (i : Nat) → (N.comp i).σ → Nat) (c : Nat → Nat → A → Nat) (m : NState N) (i : Nat) : Nat :=
  W i (m.st i) + sumTo (fun p => ((m.buf (N.src i p).1 (N.src i p).2).map fun v => c i p v + 1).sum) (N.comp i).nin

theorem step_decreases (hN : N.WF) (hg : ∀ i < N.n, Safe lim (N.comp i)) (W : (i : Nat) → (N.comp i).σ → Nat) (c : Nat → Nat → A → Nat)
    (hW : ∀ i < N.n, ∀ s h l s', CReach (N.comp i) s h → Small lim (N.comp i) h → (N.comp i).step s l s' →
      match l with
      | .recv p v => W i s' ≤ W i s + c i p v
      | _ => W i s' < W i s) {m m' : NState N} (h : NInv m) (hsm : ∀ i < N.n, Small lim (N.comp i) (m.hist i)) (hs : NStep m m') : LexLt N.n (load W c m') (load W c m) := by
  have hlegal : ∀ i < N.n, ∀ l s', (N.comp i).step (m.st i) l s' → Legal (N.comp i) (m.hist i) l :=
    fun i hi l s' hst => hg i hi _ _ _ _ (h.reach i hi) (hsm i hi) hst
  -- a step of component `i` that changes no channel read by a component up to `i`
  have own : ∀ (i : Nat) (m'' : NState N), i < N.n → (∀ j < i, m''.st j = m.st j) → W i (m''.st i) < W i (m.st i) →
      (∀ j ≤ i, j < N.n → ∀ p < (N.comp j).nin, m''.buf (N.src j p).1 (N.src j p).2 = m.buf (N.src j p).1 (N.src j p).2) →
      LexLt N.n (load W c m'') (load W c m) := by
    intro i m'' hi h1 h2 h3
    refine ⟨i, hi, fun j hj => ?_, ?_⟩
    · simp only [load, h1 j hj]
      rw [sumTo_congr fun p hp => by rw [h3 j (by omega) (by omega) p hp]]
    · simp only [load]
      rw [sumTo_congr fun p hp => by rw [h3 i (by omega) hi p hp]]
      omega
  have stne : ∀ (i : Nat) (l : Lbl A L) (s' : (N.comp i).σ) (j : Nat), j < i → (m.move i l s').st j = m.st j := by
    intro i l s' j hj
    simp only [NState.move]
    rw [Function.update_of_ne (by omega)]
  cases hs with
  | log i e s' _ hi hst =>
    exact own i _ hi (stne i _ s') (by simp only [NState.move, Function.update_self]; exact hW i hi _ _ (.log e) _ (h.reach i hi) (hsm i hi) hst) (fun _ _ _ _ _ => rfl)
  | tau i s' _ hi hst =>
    exact own i _ hi (stne i _ s') (by simp only [NState.move, Function.update_self]; exact hW i hi _ _ .tau _ (h.reach i hi) (hsm i hi) hst) (fun _ _ _ _ _ => rfl)
  | send i q v s' _ hi hst hc hb =>
    refine own i _ hi (stne i (.send q v) s') (by simp only [NState.move, Function.update_self]; exact hW i hi _ _ (.send q v) _ (h.reach i hi) (hsm i hi) hst) ?_
    intro j hj hjn p hp
    have := (hN.hsrc j hjn p hp).1
    simp only [upd2]
    rw [if_neg (by rintro ⟨e, _⟩; omega)]
  | meet i q v s' s'' _ hi hst hc hb hne hj hst2 =>
    obtain ⟨hq0, _⟩ := hlegal i hi _ _ hst
    obtain ⟨d1, d2, d3⟩ := hN.hdst i hi q hq0
    have hlt : i < (N.dst i q).1 := by
      have := (hN.hsrc _ d1 _ d2).1
      rw [d3] at this; exact this
    refine own i _ hi ?_ ?_ (fun _ _ _ _ _ => rfl)
    · intro j hj
      rw [← stne i (.send q v) s' j hj]
      simp only [NState.move]
      rw [Function.update_of_ne (by omega)]
    · simp only [NState.move]
      rw [Function.update_of_ne (by omega), Function.update_self]
      exact hW i hi _ _ (.send q v) _ (h.reach i hi) (hsm i hi) hst
  | sendPanic i q v s' _ hi hst hc =>
    obtain ⟨hq0, hcl⟩ := hlegal i hi _ _ hst
    rw [h.cl i hi q hq0, hcl] at hc; simp at hc
  | close i q s' _ hi hst hc =>
    exact own i _ hi (stne i (.close q) s') (by simp only [NState.move, Function.update_self]; exact hW i hi _ _ (.close q) _ (h.reach i hi) (hsm i hi) hst) (fun _ _ _ _ _ => rfl)
  | closePanic i q s' _ hi hst hc =>
    obtain ⟨hq0, hcl⟩ := hlegal i hi _ _ hst
    rw [h.cl i hi q hq0, hcl] at hc; simp at hc
  | eof i p s' _ hi hst hb hc =>
    exact own i _ hi (stne i _ s') (by simp only [NState.move, Function.update_self]; exact hW i hi _ _ (.eof p) _ (h.reach i hi) (hsm i hi) hst) (fun _ _ _ _ _ => rfl)
  | recv i p v vs s' _ hi hst hb =>
    obtain ⟨hp0, hpe⟩ := hlegal i hi _ _ hst
    obtain ⟨s1, s2, s3⟩ := hN.hsrc i hi p hp0
    have other : ∀ j < N.n, ∀ p' < (N.comp j).nin, ¬ (j = i ∧ p' = p) →
        ¬ ((N.src j p').1 = (N.src i p).1 ∧ (N.src j p').2 = (N.src i p).2) := by
      rintro j hjn p' hp' hne ⟨e1, e2⟩
      have := (hN.hsrc j hjn p' hp').2.2
      rw [e1, e2, s3] at this
      exact hne ⟨by simpa using (congrArg Prod.fst this).symm, by simpa using (congrArg Prod.snd this).symm⟩
    refine ⟨i, hi, fun j hj => ?_, ?_⟩
    · simp only [load]
      have e1 : ({ m.move i (.recv p v) s' with buf := upd2 m.buf (N.src i p).1 (N.src i p).2 vs } : NState N).st j = m.st j := stne i (.recv p v) s' j hj
      rw [e1]
      congr 1
      apply sumTo_congr
      intro p' hp'
      simp only [upd2]
      rw [if_neg (other j (by omega) p' hp' (by rintro ⟨e, _⟩; omega))]
    · simp only [load]
      have e1 : ({ m.move i (.recv p v) s' with buf := upd2 m.buf (N.src i p).1 (N.src i p).2 vs } : NState N).st i = s' := by
        simp [NState.move]
      rw [e1]
      have hw : W i s' ≤ W i (m.st i) + c i p v := hW i hi _ _ (.recv p v) _ (h.reach i hi) (hsm i hi) hst
      have := sumTo_one (f := fun p' => ((upd2 m.buf (N.src i p).1 (N.src i p).2 vs (N.src i p').1 (N.src i p').2).map fun v => c i p' v + 1).sum)
        (g := fun p' => ((m.buf (N.src i p').1 (N.src i p').2).map fun v => c i p' v + 1).sum) hp0 (by
          intro p' hp' hne
          simp only [upd2]
          rw [if_neg (other i hi p' hp' (fun hh => hne hh.2))])
      simp only [upd2, and_self, if_true, hb, List.map_cons, List.sum_cons] at this
      simp only [upd2]
      omega

/-- Only receiving can keep the component running (the last part of `Good`). -/
def Sinking (lim : Nat) (C : Comp A L) : Prop := ∃ (W : C.σ → Nat) (c : Nat → A → Nat), ∀ s h l s', CReach C s h → Small lim C h → C.step s l s' →
  match l with
  | .recv p v => W s' ≤ W s + c p v
  | _ => W s' < W s

theorem weights (hg : ∀ i < N.n, Sinking lim (N.comp i)) : ∃ (W : (i : Nat) → (N.comp i).σ → Nat) (c : Nat → Nat → A → Nat),
    ∀ i < N.n, ∀ s h l s', CReach (N.comp i) s h → Small lim (N.comp i) h → (N.comp i).step s l s' →
      match l with
      | .recv p v => W i s' ≤ W i s + c i p v
      | _ => W i s' < W i s := by
  classical
  have : ∀ i, ∃ x : ((N.comp i).σ → Nat) × (Nat → A → Nat), i < N.n → ∀ s h l s', CReach (N.comp i) s h → Small lim (N.comp i) h → (N.comp i).step s l s' →
      match l with
      | .recv p v => x.1 s' ≤ x.1 s + x.2 p v
      | _ => x.1 s' < x.1 s := by
    intro i
    by_cases hi : i < N.n
    · obtain ⟨W, c, h⟩ := hg i hi
      exact ⟨(W, c), fun _ => h⟩
    · exact ⟨(fun _ => 0, fun _ _ => 0), fun h => absurd h hi⟩
  choose x hx using this
  exact ⟨fun i => (x i).1, fun i => (x i).2, hx⟩

/-- There is no infinite execution of components that use their channels legally and do not run by themselves for ever. -/
theorem finite_safe (hN : N.WF) (hS : ∀ m, NReach N m → ∀ i < N.n, Small lim (N.comp i) (m.hist i)) (hg : ∀ i < N.n, Safe lim (N.comp i))
    (hw : ∀ i < N.n, Sinking lim (N.comp i)) (e : Nat → NState N) (h0 : NReach N (e 0)) : ¬ ∀ k, NStep (e k) (e (k + 1)) := by
  intro hs
  obtain ⟨W, c, hW⟩ := weights hw
  have hr : ∀ k, NReach N (e k) := by
    intro k
    induction k with
    | zero => exact h0
    | succ k ih => exact .step ih (hs k)
  have hlt : ∀ k, LexLt N.n (load W c (e (k+1))) (load W c (e k)) := fun k => step_decreases hN hg W c hW (inv_safe hN hS hg (hr k)) (hS _ (hr k)) (hs k)
  have key : ∀ a : Nat → Nat, ∀ k, load W c (e k) = a → False := by
    intro a
    induction a using (lexLt_wf N.n).induction with
    | _ a ih => intro k hk; exact ih _ (by rw [← hk]; exact hlt k) (k+1) rfl
  exact key _ 0 rfl

/-- There is no infinite execution. -/
theorem finite (hN : N.WF) (hS : ∀ m, NReach N m → ∀ i < N.n, Small lim (N.comp i) (m.hist i)) (hg : ∀ i < N.n, Good lim (N.comp i) (specs i)) (e : Nat → NState N) (h0 : NReach N (e 0)) :
    ¬ ∀ k, NStep (e k) (e (k + 1)) :=
  finite_safe hN hS (fun i hi => (hg i hi).safe) (fun i hi => (hg i hi).weight) e h0

/-- Every execution can be continued until nobody can move. -/
theorem reaches_stuck (hN : N.WF) (hS : ∀ m, NReach N m → ∀ i < N.n, Small lim (N.comp i) (m.hist i)) (hg : ∀ i < N.n, Safe lim (N.comp i))
    (hw : ∀ i < N.n, Sinking lim (N.comp i)) {m : NState N} (h : NReach N m) :
    ∃ m', Relation.ReflTransGen NStep m m' ∧ NReach N m' ∧ ∀ m'', ¬ NStep m' m'' := by
  obtain ⟨W, c, hW⟩ := weights hw
  have key : ∀ a : Nat → Nat, ∀ m, NReach N m → load W c m = a → ∃ m', Relation.ReflTransGen NStep m m' ∧ NReach N m' ∧ ∀ m'', ¬ NStep m' m'' := by
    intro a
    induction a using (lexLt_wf N.n).induction with
    | _ a ih =>
      intro m hm ha
      by_cases hst : ∃ m', NStep m m'
      · obtain ⟨m', hs⟩ := hst
        obtain ⟨m'', h1, h2⟩ := ih _ (by rw [← ha]; exact step_decreases hN hg W c hW (inv_safe hN hS hg hm) (hS _ hm) hs) m' (.step hm hs) rfl
        exact ⟨m'', .head hs h1, h2⟩
      · exact ⟨m, .refl, hm, fun m' hs => hst ⟨m', hs⟩⟩
  exact key _ m h rfl

/-- Every execution can be continued until every component has finished. -/
theorem reaches_end (hN : N.WF) (hS : ∀ m, NReach N m → ∀ i < N.n, Small lim (N.comp i) (m.hist i)) (hg : ∀ i < N.n, Good lim (N.comp i) (specs i)) {m : NState N} (h : NReach N m) :
    ∃ m', Relation.ReflTransGen NStep m m' ∧ ∀ i < N.n, (N.comp i).done (m'.st i) := by
  obtain ⟨m', h1, h2, h3⟩ := reaches_stuck hN hS (fun i hi => (hg i hi).safe) (fun i hi => (hg i hi).weight) h
  exact ⟨m', h1, stuck_done hN hS hg h2 h3⟩

end Verif.Conc.Net

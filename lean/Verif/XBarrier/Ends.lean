import Verif.XBarrier.Props
import Verif.Conc.Ends
/-!
# When a barrier call blocks (C76)
-/
namespace Verif.XBarrier
open Verif.Go Verif.Conc

variable {α : Type}

/-! ## Specification -/

/-- A call that wants to send. -/
def Op.sends : Op α → Bool
  | .write _ | .send _ => true
  | _ => false

/-- A call that wants to receive. -/
def Op.receives : Op α → Bool
  | .read | .recv => true
  | _ => false

/-! ## Termination -/

/-- Proof only: how many steps a call has still to make. -/
def rank : Pt ⊕ Res α → Nat
  | .inl .check => 3
  | .inl .go => 2
  | .inl .wait => 1
  | .inr _ => 0

theorem rank_lt {n : Nat} {op : Op α} {x' x : Pt ⊕ Res α} (h : (prog n).Own op x' x) : rank x' < rank x := by
  obtain ⟨s, g, i, c, g', rfl, hs⟩ := h
  simp only [prog] at hs
  cases op <;> cases s <;> simp only [step, sendStep, waitStep, recvStep, reduceCtorEq] at hs <;> (repeat' split at hs) <;>
    simp only [Option.some.injEq, Prod.mk.injEq, reduceCtorEq] at hs <;> obtain ⟨_, rfl⟩ := hs <;> simp [rank] <;> split <;> simp [rank]

/-- **C76.** Without new calls every execution ends, whatever the schedule. -/
theorem C76_ends (n : Nat) {m : Conf (G α) (Op α) (Res α) Pt} {H : List (Ev (Op α) (Res α))} (h : (prog n).mach.Exec m H) : Acc (prog n).Moves m := by
  refine (prog n).ends (fun op => ?_) h
  have : ∀ k, ∀ x : Pt ⊕ Res α, rank x < k → Acc ((prog n).Own op) x := by
    intro k
    induction k with
    | zero => intro x hx; omega
    | succ k ih => exact fun x hx => ⟨_, fun x' h' => ih x' (by have := rank_lt h'; omega)⟩
  exact this _ _ (Nat.lt_succ_self _)

/-! ## What blocks -/

/-- Proof only: the points at which a call of this kind can be. -/
def okPt : Op α → Pt → Bool
  | .write _, _ => true
  | .read, .wait => false
  | .read, _ => true
  | .send _, .check => false
  | .send _, _ => true
  | _, .go => true
  | _, _ => false

/-- Proof only: the channel is full and stays so. -/
structure Full (n : Nat) (g : G α) (v : View (Op α) (Res α) Pt) : Prop where
  cap : g.ch.cap = n
  le : g.ch.buf.length ≤ n
  full : g.ch.closed = false → g.ch.sendq ≠ [] → g.ch.buf.length = n
  pts : ∀ i op s, v i = some (op, .inl s) → okPt op s = true

theorem full_exec (n : Nat) {m : Conf (G α) (Op α) (Res α) Pt} {H : List (Ev (Op α) (Res α))} (h : (prog n).mach.Exec m H) : Full n m.g m.view := by
  refine (prog n).induct (fun g v _ => Full n g v) ?_ ?_ ?_ ?_ h
  · exact ⟨rfl, Nat.zero_le _, fun _ h => absurd rfl h, fun _ _ _ h => by simp at h⟩
  · rintro g v H i op ⟨h1, h2, h3, h4⟩ hv
    refine ⟨h1, h2, h3, fun j op' s hj => ?_⟩
    by_cases hji : j = i
    · subst hji
      simp only [upd_same, Option.some.injEq, Prod.mk.injEq, Sum.inl.injEq] at hj
      obtain ⟨rfl, rfl⟩ := hj
      cases op <;> rfl
    · rw [upd_ne _ _ hji] at hj; exact h4 j op' s hj
  · rintro g v H i op s c g' x ⟨h1, h2, h3, h4⟩ hv hs
    have pts : (∀ s', x = .inl s' → okPt op s' = true) → ∀ j op' s', upd v i (some (op, x)) j = some (op', .inl s') → okPt op' s' = true := by
      intro hx j op' s' hj
      by_cases hji : j = i
      · subst hji
        simp only [upd_same, Option.some.injEq, Prod.mk.injEq] at hj
        obtain ⟨rfl, rfl⟩ := hj
        exact hx _ rfl
      · rw [upd_ne _ _ hji] at hj; exact h4 j op' s' hj
    have send : ∀ u r, sendStep g i u r = some (g', x) → op.sends = true → Full n g' (upd v i (some (op, x))) := by
      intro u r hs ho
      simp only [sendStep, BChan.send] at hs
      have hw : okPt op .wait = true := by cases op <;> simp [Op.sends] at ho <;> rfl
      cases hc : g.ch.closed with
      | true =>
        simp only [hc, if_true, Option.some.injEq, Prod.mk.injEq] at hs
        obtain ⟨rfl, rfl⟩ := hs
        exact ⟨h1, h2, h3, pts (by simp)⟩
      | false =>
        by_cases hl : g.ch.buf.length < g.ch.cap
        · simp only [hc, hl, Bool.false_eq_true, if_false, if_true, Option.some.injEq, Prod.mk.injEq] at hs
          obtain ⟨rfl, rfl⟩ := hs
          refine ⟨h1, by simp; omega, fun _ hq => ?_, pts (by simp)⟩
          have := h3 hc hq; omega
        · simp only [hc, hl, Bool.false_eq_true, if_false, Option.some.injEq, Prod.mk.injEq] at hs
          obtain ⟨rfl, rfl⟩ := hs
          exact ⟨h1, h2, fun _ _ => by show g.ch.buf.length = n; omega, pts (by rintro s' ⟨⟩; exact hw)⟩
    have wait : ∀ r, waitStep g i r = some (g', x) → Full n g' (upd v i (some (op, x))) := by
      intro r hs
      simp only [waitStep] at hs
      split at hs <;> simp only [Option.some.injEq, Prod.mk.injEq, reduceCtorEq] at hs <;> obtain ⟨rfl, rfl⟩ := hs <;>
        exact ⟨h1, h2, h3, pts (by simp)⟩
    have recv : recvStep g i = some (g', x) → Full n g' (upd v i (some (op, x))) := by
      intro hs
      simp only [recvStep, BChan.recv] at hs
      cases hb : g.ch.buf with
      | cons y ys =>
        rw [hb] at h2
        simp only [List.length_cons] at h2
        cases hc : g.ch.closed with
        | true =>
          simp only [hb, hc, if_true, Option.some.injEq, Prod.mk.injEq] at hs
          obtain ⟨rfl, rfl⟩ := hs
          exact ⟨h1, by show ys.length ≤ n; omega, fun h' => by simp at h', pts (by simp)⟩
        | false =>
          cases hq : g.ch.sendq with
          | nil =>
            simp only [hb, hc, hq, Bool.false_eq_true, if_false, Option.some.injEq, Prod.mk.injEq] at hs
            obtain ⟨rfl, rfl⟩ := hs
            exact ⟨h1, by show ys.length ≤ n; omega, fun _ h' => absurd rfl h', pts (by simp)⟩
          | cons e q =>
            simp only [hb, hc, hq, Bool.false_eq_true, if_false, Option.some.injEq, Prod.mk.injEq] at hs
            obtain ⟨rfl, rfl⟩ := hs
            have := h3 hc (by simp [hq])
            rw [hb] at this
            exact ⟨h1, by simpa using h2, fun _ _ => by simpa using this, pts (by simp)⟩
      | nil =>
        cases hc : g.ch.closed with
        | true =>
          simp only [hb, hc, if_true, Option.some.injEq, Prod.mk.injEq] at hs
          obtain ⟨rfl, rfl⟩ := hs
          exact ⟨h1, h2, h3, pts (by simp)⟩
        | false =>
          cases hq : g.ch.sendq with
          | nil => simp [hb, hc, hq] at hs
          | cons e q =>
            simp only [hb, hc, hq, Bool.false_eq_true, if_false, Option.some.injEq, Prod.mk.injEq] at hs
            obtain ⟨rfl, rfl⟩ := hs
            have := h3 hc (by simp [hq])
            rw [hb] at this h2
            exact ⟨h1, h2, fun _ _ => this, pts (by simp)⟩
    have same : ∀ y : Pt ⊕ Res α, some (g, y) = some (g', x) → (∀ s', y = .inl s' → okPt op s' = true) → Full n g' (upd v i (some (op, x))) := by
      intro y hs hy
      simp only [Option.some.injEq, Prod.mk.injEq] at hs
      obtain ⟨rfl, rfl⟩ := hs
      exact ⟨h1, h2, h3, pts hy⟩
    simp only [prog] at hs
    cases op with
    | write u =>
      cases s <;> simp only [step] at hs
      · exact same _ hs fun _ _ => rfl
      · exact send _ _ hs rfl
      · exact wait _ hs
    | read =>
      cases s <;> simp only [step, reduceCtorEq] at hs
      · refine same _ hs fun s' hs' => ?_
        split at hs' <;> simp only [reduceCtorEq, Sum.inl.injEq] at hs'
        subst hs'; rfl
      · exact recv hs
    | send u =>
      cases s <;> simp only [step, reduceCtorEq] at hs
      · exact send _ _ hs rfl
      · exact wait _ hs
    | recv =>
      cases s <;> simp only [step, reduceCtorEq] at hs
      exact recv hs
    | close =>
      cases s <;> simp only [step, BChan.close, reduceCtorEq] at hs
      cases hc : g.ch.closed with
      | true => simp only [hc, if_true] at hs; exact same _ hs (by simp)
      | false =>
        simp only [hc, Bool.false_eq_true, if_false, Option.some.injEq, Prod.mk.injEq] at hs
        obtain ⟨rfl, rfl⟩ := hs
        exact ⟨h1, h2, by simp, pts (by simp)⟩
    | cancelW =>
      cases s <;> simp only [step, reduceCtorEq, Option.some.injEq, Prod.mk.injEq] at hs
      obtain ⟨rfl, rfl⟩ := hs
      exact ⟨h1, h2, h3, pts (by simp)⟩
    | cancelR =>
      cases s <;> simp only [step, reduceCtorEq, Option.some.injEq, Prod.mk.injEq] at hs
      obtain ⟨rfl, rfl⟩ := hs
      exact ⟨h1, h2, h3, pts (by simp)⟩
  · intro g v H i op r h _; exact h

/-- **C76**, exactly. When nothing can move any more, a call that has not returned is blocked by the channel alone: the channel is open, and
either the call wants to send, the buffer is full and nobody wants to receive, or the call wants to receive, the buffer is empty and nobody wants
to send. The contexts do not matter. -/
theorem C76_exact (n : Nat) {m : Conf (G α) (Op α) (Res α) Pt} {H : List (Ev (Op α) (Res α))} (h : (prog n).mach.Exec m H)
    (hs : ∀ j c, (prog n).mach.next m j c = none) {i : Nat} {op : Op α} (hi : Ev.inv i op ∈ H) (hr : ∀ r, Ev.ret i r ∉ H) :
    m.g.ch.closed = false ∧
    ((op.sends = true ∧ m.g.sends.length = m.g.recvs.length + n ∧ ∀ j op', Ev.inv j op' ∈ H → op'.receives = true → ∃ r, Ev.ret j r ∈ H) ∨
     (op.receives = true ∧ m.g.sends.length = m.g.recvs.length ∧ ∀ j op', Ev.inv j op' ∈ H → op'.sends = true → ∃ r, Ev.ret j r ∈ H)) := by
  have hf := full_exec n h
  have hcons : m.g.sends.length = m.g.recvs.length + m.g.ch.buf.length := by
    have := congrArg List.length (C11_C12_conservation n h)
    simpa using this
  have key : ∀ i op, Ev.inv i op ∈ H → (∀ r, Ev.ret i r ∉ H) → m.g.ch.closed = false ∧
      ((op.sends = true ∧ m.g.ch.sendq ≠ []) ∨ (op.receives = true ∧ m.g.ch.buf = [] ∧ m.g.ch.sendq = [])) := by
    intro i op hi hr
    rcases (prog n).pending h hi hr with ⟨s, hp⟩ | ⟨r, hp⟩
    swap
    · have := hs i 0; simp [Prog.mach, hp] at this
    have hst : (prog n).step m.g i op s 0 = none := by
      have := hs i 0
      simp only [Prog.mach, hp] at this
      cases hst : (prog n).step m.g i op s 0 with
      | none => rfl
      | some y => obtain ⟨g', x⟩ := y; cases x <;> simp [hst] at this
    have hpt := hf.pts i op s (by simp [Conf.view, hp, Proc.view])
    have wait : ∀ r, waitStep m.g i r = none → m.g.ch.closed = false ∧ m.g.ch.sendq ≠ [] := by
      intro r hw
      simp only [waitStep, BChan.wait] at hw
      by_cases hq : i ∈ m.g.ch.sendq.map (·.1)
      · cases hc : m.g.ch.closed with
        | true => simp [hq, hc] at hw
        | false => exact ⟨rfl, fun e => by simp [e] at hq⟩
      · simp [hq] at hw
    have recv : recvStep m.g i = none → m.g.ch.closed = false ∧ m.g.ch.buf = [] ∧ m.g.ch.sendq = [] := by
      intro hw
      simp only [recvStep, BChan.recv] at hw
      cases hb : m.g.ch.buf with
      | cons y ys =>
        simp only [hb] at hw
        cases hc : m.g.ch.closed <;> simp only [hc, Bool.false_eq_true, if_true, if_false, reduceCtorEq] at hw
        cases hq : m.g.ch.sendq <;> simp [hq] at hw
      | nil =>
        simp only [hb] at hw
        cases hc : m.g.ch.closed <;> simp only [hc, Bool.false_eq_true, if_true, if_false, reduceCtorEq] at hw
        cases hq : m.g.ch.sendq <;> simp [hq] at hw
        exact ⟨rfl, rfl, rfl⟩
    have send : ∀ u r, sendStep m.g i u r ≠ none := by
      intro u r hw
      simp only [sendStep, BChan.send] at hw
      split at hw <;> simp at hw
    simp only [prog] at hst
    cases op with
    | write u =>
      cases s <;> simp only [step, reduceCtorEq] at hst
      · exact absurd hst (send _ _)
      · have := wait _ hst; exact ⟨this.1, .inl ⟨rfl, this.2⟩⟩
    | send u =>
      cases s <;> simp only [step, okPt, reduceCtorEq, Bool.false_eq_true] at hst hpt
      · exact absurd hst (send _ _)
      · have := wait _ hst; exact ⟨this.1, .inl ⟨rfl, this.2⟩⟩
    | read =>
      cases s <;> simp only [step, okPt, reduceCtorEq, Bool.false_eq_true] at hst hpt
      have := recv hst; exact ⟨this.1, .inr ⟨rfl, this.2⟩⟩
    | recv =>
      cases s <;> simp only [step, okPt, reduceCtorEq, Bool.false_eq_true] at hst hpt
      have := recv hst; exact ⟨this.1, .inr ⟨rfl, this.2⟩⟩
    | close =>
      cases s <;> simp only [step, okPt, reduceCtorEq, Bool.false_eq_true] at hst hpt
      split at hst <;> simp at hst
    | cancelW => cases s <;> simp only [step, okPt, reduceCtorEq, Bool.false_eq_true] at hst hpt
    | cancelR => cases s <;> simp only [step, okPt, reduceCtorEq, Bool.false_eq_true] at hst hpt
  have other : ∀ op : Op α, op.sends = true → op.receives = true → False := by intro op; cases op <;> simp [Op.sends, Op.receives]
  obtain ⟨hc, hk⟩ := key i op hi hr
  refine ⟨hc, hk.imp (fun ⟨h1, h2⟩ => ⟨h1, ?_, fun j op' hj ho => Classical.byContradiction fun hn => ?_⟩)
    (fun ⟨h1, h2, h3⟩ => ⟨h1, ?_, fun j op' hj ho => Classical.byContradiction fun hn => ?_⟩)⟩
  · rw [hcons, hf.full hc h2]
  · rcases (key j op' hj fun r hr => hn ⟨r, hr⟩).2 with ⟨h3, _⟩ | ⟨_, _, h4⟩
    · exact other _ h3 ho
    · exact h2 h4
  · simp [hcons, h2]
  · rcases (key j op' hj fun r hr => hn ⟨r, hr⟩).2 with ⟨_, h4⟩ | ⟨h4, _⟩
    · exact h4 h3
    · exact other _ ho h4

/-- A `Write` on an unbuffered channel whose context is done, and nobody receives. -/
theorem demoBlocked : ∃ m, (prog (α := Nat) 0).mach.Exec m [.inv 1 (.write 7), .inv 9 .cancelW, .ret 9 .unit] ∧
    m.pc = upd (upd (fun _ => .idle) 1 (.at (.write 7) .wait)) 9 (.done .cancelW .unit) ∧ m.g = ⟨⟨[], 0, false, [(1, 7)]⟩, true, false, [], []⟩ := by
  refine Mach.exists_exec_state _ [.inv 1 (.write 7), .run 1, .run 1, .inv 9 .cancelW, .run 9, .run 9] _ _ ?_
  refine ⟨rfl, ?_, rfl⟩
  funext i
  simp only [upd]
  repeat' split
  all_goals rfl

example := demoBlocked.imp fun m h => C76_exact 0 h.1 (fun j c => by
  simp only [Prog.mach, h.2.1]
  by_cases h9 : j = 9
  · subst h9; simp
  · by_cases h1 : j = 1
    · subst h1
      simp [upd_ne _ _ h9, prog, step, waitStep, BChan.wait, h.2.2]
    · simp [upd_ne _ _ h9, upd_ne _ _ h1]) (i := 1) (op := .write 7) (by simp) (by simp)

end Verif.XBarrier

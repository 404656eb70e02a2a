import Verif.XOnce.Model
/-! # Property theorems for `xonce` (C09, C10) -/
namespace Verif.XOnce
open Verif.Go Verif.Conc

variable {α : Type}

/-! ## `Chan` -/

/-- The call executed by a process. -/
def CPC.op : CPC α → Option (COp α)
  | .idle => none
  | .cas v | .send v | .close v | .ret v _ | .doneW v _ => some (.write v)
  | .recv | .doneR _ => some .recv

/-- The result of a finished call. -/
def CPC.res : CPC α → Option (CRes α)
  | .doneW _ r | .doneR r => some r
  | _ => none

/-- The value of the process if it has won the compare-and-swap. -/
def CPC.won : CPC α → Option α
  | .send v | .close v | .ret v (.ok true) | .doneW v (.ok true) => some v
  | _ => none

/-- The histories and the state tell the same story. -/
structure CHist (m : CSt α) (H : List (Ev (COp α) (CRes α))) : Prop where
  inv : ∀ i op, Ev.inv i op ∈ H ↔ (m.pc i).op = some op
  ret : ∀ i r, Ev.ret i r ∈ H ↔ (m.pc i).res = some r

theorem CHist.goto {m : CSt α} {H : List (Ev (COp α) (CRes α))} (h : CHist m H) (i : Nat) (p : CPC α) (ch : Chan α) (w : Bool)
    (ho : p.op = (m.pc i).op) (hr : p.res = (m.pc i).res) : CHist ⟨ch, w, upd m.pc i p⟩ H := by
  constructor
  · intro j op
    by_cases hj : j = i
    · subst hj; simp only [upd_same, ho]; exact h.inv j op
    · simp only [upd_ne _ _ hj]; exact h.inv j op
  · intro j r
    by_cases hj : j = i
    · subst hj; simp only [upd_same, hr]; exact h.ret j r
    · simp only [upd_ne _ _ hj]; exact h.ret j r

theorem CHist.goto_ret {m : CSt α} {H : List (Ev (COp α) (CRes α))} (h : CHist m H) (i : Nat) (p : CPC α) (ch : Chan α) (w : Bool)
    (r : CRes α) (ho : p.op = (m.pc i).op) (h0 : (m.pc i).res = none) (hr : p.res = some r) : CHist ⟨ch, w, upd m.pc i p⟩ (H ++ [.ret i r]) := by
  constructor
  · intro j op
    simp only [List.mem_append, List.mem_singleton, reduceCtorEq, or_false]
    by_cases hj : j = i
    · subst hj; simp only [upd_same, ho]; exact h.inv j op
    · simp only [upd_ne _ _ hj]; exact h.inv j op
  · intro j r'
    simp only [List.mem_append, List.mem_singleton, Ev.ret.injEq]
    rw [h.ret]
    by_cases hj : j = i
    · subst hj; simp [upd_same, hr, h0, eq_comm]
    · simp [upd_ne _ _ hj, hj]

theorem CHist.goto_inv {m : CSt α} {H : List (Ev (COp α) (CRes α))} (h : CHist m H) (i : Nat) (p : CPC α)
    (op : COp α) (ho : p.op = some op) (h0 : m.pc i = .idle) (hr : p.res = none) : CHist (m.goto i p) (H ++ [.inv i op]) := by
  constructor
  · intro j op'
    simp only [List.mem_append, List.mem_singleton, Ev.inv.injEq]
    rw [h.inv]
    by_cases hj : j = i
    · subst hj; simp only [CSt.goto, upd_same, ho, h0]; simp [CPC.op, eq_comm]
    · simp [CSt.goto, upd_ne _ _ hj, hj]
  · intro j r
    simp only [List.mem_append, List.mem_singleton, reduceCtorEq, or_false]
    by_cases hj : j = i
    · subst hj; simp only [CSt.goto, upd_same, hr]; rw [h.ret, h0]; rfl
    · simp only [CSt.goto, upd_ne _ _ hj]; exact h.ret j r

/-- Before the first write. -/
structure Fresh (m : CSt α) : Prop where
  wrote : m.wrote = false
  ch : m.ch = Chan.make 1
  nobody : ∀ i, (m.pc i).won = none
  unread : ∀ i r, m.pc i ≠ .doneR r
  noret : ∀ i v r, m.pc i ≠ .ret v r ∧ m.pc i ≠ .doneW v r

/-- Process `i` has won with value `v`. -/
structure Won (m : CSt α) (i : Nat) (v : α) : Prop where
  wrote : m.wrote = true
  cap : m.ch.cap = 1
  winner : (m.pc i).won = some v
  only : ∀ j w, (m.pc j).won = some w → j = i
  send : m.pc i = .send v → m.ch.buf = [] ∧ m.ch.closed = false ∧ ∀ k r, m.pc k ≠ .doneR r
  closed : m.pc i ≠ .send v → (m.ch.closed = true ↔ m.pc i ≠ .close v)
  content : m.pc i ≠ .send v → (m.ch.buf = [v] ∧ ∀ k r, m.pc k ≠ .doneR r) ∨
    (m.ch.buf = [] ∧ ∃ k, m.pc k = .doneR (.got (some v)) ∧ ∀ k' r, m.pc k' = .doneR r → k' = k ∨ (r = .got none ∧ m.ch.closed = true))

/-- Proof only: part of an invariant or simulation; models no code. -/
structure CInv (m : CSt α) (H : List (Ev (COp α) (CRes α))) : Prop where
  hist : CHist m H
  bool : ∀ i v r, (m.pc i = .ret v r ∨ m.pc i = .doneW v r) → ∃ b, r = .ok b
  reads : ∀ i r, m.pc i = .doneR r → ∃ o, r = .got o
  phase : Fresh m ∨ ∃ i v, Won m i v

/-- A step of `i` between program points that are not those of a winner keeps the phase. -/
theorem Fresh.goto {m : CSt α} (h : Fresh m) (i : Nat) (p : CPC α) (hw : p.won = none) (hr : ∀ r, p ≠ .doneR r)
    (hn : ∀ v r, p ≠ .ret v r ∧ p ≠ .doneW v r) : Fresh (m.goto i p) := by
  refine ⟨h.wrote, h.ch, ?_, ?_, ?_⟩
  · intro j
    by_cases hj : j = i
    · subst hj; simp [CSt.goto, hw]
    · simp only [CSt.goto, upd_ne _ _ hj]; exact h.nobody j
  · intro j r
    by_cases hj : j = i
    · subst hj; simpa [CSt.goto] using hr r
    · simp only [CSt.goto, upd_ne _ _ hj]; exact h.unread j r
  · intro j v r
    by_cases hj : j = i
    · subst hj; simpa [CSt.goto] using hn v r
    · simp only [CSt.goto, upd_ne _ _ hj]; exact h.noret j v r

theorem Won.goto {m : CSt α} {i : Nat} {v : α} (h : Won m i v) (j : Nat) (p : CPC α) (hj : (m.pc j).won = none) (hw : p.won = none)
    (hr : ∀ r, p ≠ .doneR r) (hnr : ∀ r, m.pc j ≠ .doneR r) : Won (m.goto j p) i v := by
  have hij : i ≠ j := by rintro rfl; rw [h.winner] at hj; simp at hj
  have hdone : ∀ k r, upd m.pc j p k = .doneR r ↔ m.pc k = .doneR r := by
    intro k r
    by_cases hk : k = j
    · subst hk; simp [hr r, hnr r]
    · simp [upd_ne _ _ hk]
  refine ⟨h.wrote, h.cap, ?_, ?_, ?_, ?_, ?_⟩
  · simp only [CSt.goto, upd_ne _ _ hij]; exact h.winner
  · intro k w hk
    by_cases hkj : k = j
    · subst hkj; simp [CSt.goto, hw] at hk
    · simp only [CSt.goto, upd_ne _ _ hkj] at hk; exact h.only k w hk
  · simp only [CSt.goto, upd_ne _ _ hij, ne_eq, hdone]; exact h.send
  · simp only [CSt.goto, upd_ne _ _ hij]; exact h.closed
  · simp only [CSt.goto, upd_ne _ _ hij, ne_eq, hdone]; exact h.content

theorem cinv_step {m m' : CSt α} {H : List (Ev (COp α) (CRes α))} {l : Option (Ev (COp α) (CRes α))} (h : CInv m H)
    (hs : (chanMachine (α := α)).Step m l m') : CInv m' (H ++ l.toList) := by
  cases hs with
  | inv i op _ he =>
    simp only [chanMachine, cInvoke] at he
    split at he
    · rename_i hpc
      simp only [Option.some.injEq] at he
      subst he
      have key : ∀ p : CPC α, p.op = some op → p.res = none → p.won = none → (∀ r, p ≠ .doneR r) → (∀ v r, p ≠ .ret v r ∧ p ≠ .doneW v r) →
          CInv (m.goto i p) (H ++ [.inv i op]) := by
        intro p h1 h2 h3 h4 h5
        refine ⟨h.hist.goto_inv i p op h1 hpc h2, ?_, ?_, ?_⟩
        · intro j v r hj
          by_cases hji : j = i
          · subst hji; simp only [CSt.goto, upd_same] at hj
            rcases hj with hj | hj
            · exact absurd hj (h5 v r).1
            · exact absurd hj (h5 v r).2
          · simp only [CSt.goto, upd_ne _ _ hji] at hj; exact h.bool j v r hj
        · intro j r hj
          by_cases hji : j = i
          · subst hji; simp only [CSt.goto, upd_same] at hj; exact absurd hj (h4 r)
          · simp only [CSt.goto, upd_ne _ _ hji] at hj; exact h.reads j r hj
        · rcases h.phase with hp | ⟨w, v, hp⟩
          · exact Or.inl (hp.goto i p h3 h4 h5)
          · exact Or.inr ⟨w, v, hp.goto i p (by rw [hpc]; rfl) h3 h4 (by rw [hpc]; simp)⟩
      cases op with
      | write v => exact key _ rfl rfl rfl (by simp) (by simp)
      | recv => exact key _ rfl rfl rfl (by simp) (by simp)
    · simp at he
  | run i c l' m'' he =>
    simp only [chanMachine, cNext] at he
    have hbool : ∀ p : CPC α, (∀ v r, (p = .ret v r ∨ p = .doneW v r) → ∃ b, r = .ok b) → ∀ ch w j v r,
        ((CSt.mk ch w (upd m.pc i p)).pc j = .ret v r ∨ (CSt.mk ch w (upd m.pc i p)).pc j = .doneW v r) → ∃ b, r = .ok b := by
      intro p hp ch w j v r hj
      by_cases hji : j = i
      · subst hji; simp only [upd_same] at hj; exact hp v r hj
      · simp only [upd_ne _ _ hji] at hj; exact h.bool j v r hj
    have hreads : ∀ p : CPC α, (∀ r, p = .doneR r → ∃ o, r = .got o) → ∀ ch w j r, (CSt.mk ch w (upd m.pc i p)).pc j = .doneR r → ∃ o, r = .got o := by
      intro p hp ch w j r hj
      by_cases hji : j = i
      · subst hji; simp only [upd_same] at hj; exact hp r hj
      · simp only [upd_ne _ _ hji] at hj; exact h.reads j r hj
    cases hpc : m.pc i with
    | idle => simp [hpc] at he
    | doneW v r => simp [hpc] at he
    | doneR r => simp [hpc] at he
    | cas v =>
      simp only [hpc, Option.some.injEq, Prod.mk.injEq] at he
      obtain ⟨rfl, rfl⟩ := he
      simp only [Option.toList_none, List.append_nil]
      cases hw : m.wrote with
      | true =>
        simp only [if_true]
        refine ⟨h.hist.goto i _ _ _ (by rw [hpc]; rfl) (by rw [hpc]; rfl), hbool _ (by simp) _ _, hreads _ (by simp) _ _, ?_⟩
        rcases h.phase with hp | ⟨w, v', hp⟩
        · rw [hp.wrote] at hw; simp at hw
        · exact Or.inr ⟨w, v', hp.goto i _ (by rw [hpc]; rfl) rfl (by simp) (by rw [hpc]; simp)⟩
      | false =>
        simp only [Bool.false_eq_true, if_false]
        refine ⟨h.hist.goto i _ _ _ (by rw [hpc]; rfl) (by rw [hpc]; rfl), hbool _ (by simp) _ _, hreads _ (by simp) _ _, ?_⟩
        rcases h.phase with hp | ⟨w, v', hp⟩
        · refine Or.inr ⟨i, v, rfl, by simp [CSt.goto, hp.ch, Chan.make], by simp [CSt.goto, CPC.won], ?_, ?_, ?_, ?_⟩
          · intro j w hj
            by_cases hji : j = i
            · exact hji
            · simp only [CSt.goto, upd_ne _ _ hji] at hj; rw [hp.nobody j] at hj; simp at hj
          · intro _
            refine ⟨by simp [CSt.goto, hp.ch, Chan.make], by simp [CSt.goto, hp.ch, Chan.make], ?_⟩
            intro k r
            by_cases hk : k = i
            · subst hk; simp [CSt.goto]
            · simp only [CSt.goto, upd_ne _ _ hk]; exact hp.unread k r
          · intro hne; simp [CSt.goto] at hne
          · intro hne; simp [CSt.goto] at hne
        · rw [hp.wrote] at hw; simp at hw
    | send v =>
      rcases h.phase with hp | ⟨w, v', hp⟩
      · have := hp.nobody i; rw [hpc] at this; simp [CPC.won] at this
      have hiw : i = w := hp.only i v (by rw [hpc]; rfl)
      subst hiw
      have hv : v = v' := by have := hp.winner; rw [hpc] at this; simpa [CPC.won] using this
      subst hv
      obtain ⟨h1, h2, h3⟩ := hp.send hpc
      simp only [hpc, Chan.send, h2, h1, hp.cap, Bool.false_eq_true, if_false, List.length_nil, Nat.zero_lt_one, if_true, Option.some.injEq,
        Prod.mk.injEq] at he
      obtain ⟨rfl, rfl⟩ := he
      simp only [Option.toList_none, List.append_nil]
      refine ⟨h.hist.goto i _ _ _ (by rw [hpc]; rfl) (by rw [hpc]; rfl), hbool _ (by simp) _ _, hreads _ (by simp) _ _, ?_⟩
      refine Or.inr ⟨i, v, hp.wrote, rfl, by simp [CSt.goto, CPC.won], ?_, ?_, ?_, ?_⟩
      · intro j w hj
        by_cases hji : j = i
        · exact hji
        · simp only [CSt.goto, upd_ne _ _ hji] at hj; exact hp.only j w hj
      · intro hne; simp [CSt.goto] at hne
      · intro _; simp [CSt.goto]
      · intro _
        refine Or.inl ⟨rfl, ?_⟩
        intro k r
        by_cases hk : k = i
        · subst hk; simp [CSt.goto]
        · simp only [CSt.goto, upd_ne _ _ hk]; exact h3 k r
    | close v =>
      rcases h.phase with hp | ⟨w, v', hp⟩
      · have := hp.nobody i; rw [hpc] at this; simp [CPC.won] at this
      have hiw : i = w := hp.only i v (by rw [hpc]; rfl)
      subst hiw
      have hv : v = v' := by have := hp.winner; rw [hpc] at this; simpa [CPC.won] using this
      subst hv
      have hopen : m.ch.closed = false := by
        have := (hp.closed (by rw [hpc]; simp))
        rw [hpc] at this
        simpa using this
      simp only [hpc, Chan.close, hopen, Bool.false_eq_true, if_false, Option.some.injEq, Prod.mk.injEq] at he
      obtain ⟨rfl, rfl⟩ := he
      simp only [Option.toList_none, List.append_nil]
      refine ⟨h.hist.goto i _ _ _ (by rw [hpc]; rfl) (by rw [hpc]; rfl), hbool _ (by simp) _ _, hreads _ (by simp) _ _, ?_⟩
      refine Or.inr ⟨i, v, hp.wrote, hp.cap, by simp [CSt.goto, CPC.won], ?_, ?_, ?_, ?_⟩
      · intro j w hj
        by_cases hji : j = i
        · exact hji
        · simp only [CSt.goto, upd_ne _ _ hji] at hj; exact hp.only j w hj
      · intro hne; simp [CSt.goto] at hne
      · intro _; simp [CSt.goto]
      · intro _
        have hdone : ∀ k r, upd m.pc i (CPC.ret v (.ok true)) k = .doneR r ↔ m.pc k = .doneR r := by
          intro k r
          by_cases hk : k = i
          · subst hk; simp [hpc]
          · simp [upd_ne _ _ hk]
        simp only [CSt.goto, ne_eq, hdone]
        rcases hp.content (by rw [hpc]; simp) with hc | ⟨hc1, k, hc2, hc3⟩
        · exact Or.inl hc
        · refine Or.inr ⟨hc1, k, hc2, fun k' r hk => ?_⟩
          rcases hc3 k' r hk with h' | h'
          · exact Or.inl h'
          · exact Or.inr ⟨h'.1, trivial⟩
    | ret v r =>
      simp only [hpc, Option.some.injEq, Prod.mk.injEq] at he
      obtain ⟨rfl, rfl⟩ := he
      obtain ⟨b, rfl⟩ := h.bool i v r (Or.inl hpc)
      refine ⟨h.hist.goto_ret i _ _ _ _ (by rw [hpc]; rfl) (by rw [hpc]; rfl) rfl, hbool _ (by simp) _ _, hreads _ (by simp) _ _, ?_⟩
      have hdone : ∀ k r, upd m.pc i (CPC.doneW v (.ok b)) k = .doneR r ↔ m.pc k = .doneR r := by
        intro k r
        by_cases hk : k = i
        · subst hk; simp [hpc]
        · simp [upd_ne _ _ hk]
      have hwon : ∀ k, (upd m.pc i (CPC.doneW v (.ok b)) k).won = (m.pc k).won := by
        intro k
        by_cases hk : k = i
        · subst hk; simp only [upd_same, hpc]; cases b <;> rfl
        · simp [upd_ne _ _ hk]
      have hsend : ∀ k w, upd m.pc i (CPC.doneW v (.ok b)) k = .send w ↔ m.pc k = .send w := by
        intro k w
        by_cases hk : k = i
        · subst hk; simp [hpc]
        · simp [upd_ne _ _ hk]
      have hclose : ∀ k w, upd m.pc i (CPC.doneW v (.ok b)) k = .close w ↔ m.pc k = .close w := by
        intro k w
        by_cases hk : k = i
        · subst hk; simp [hpc]
        · simp [upd_ne _ _ hk]
      rcases h.phase with hp | ⟨w, v', hp⟩
      · exact absurd hpc (hp.noret i _ _).1
      · refine Or.inr ⟨w, v', hp.wrote, hp.cap, ?_, ?_, ?_, ?_, ?_⟩
        · simp only [CSt.goto, hwon]; exact hp.winner
        · intro j w' hj; simp only [CSt.goto, hwon] at hj; exact hp.only j w' hj
        · simp only [CSt.goto, hsend, hdone, ne_eq]; exact hp.send
        · simp only [CSt.goto, hsend, hclose, ne_eq]; exact hp.closed
        · simp only [CSt.goto, hsend, hdone, ne_eq]; exact hp.content
    | recv =>
      rcases h.phase with hp | ⟨w, v', hp⟩
      · simp [hpc, hp.ch, Chan.make, Chan.recv] at he
      have hiw : w ≠ i := by rintro rfl; have := hp.winner; rw [hpc] at this; simp [CPC.won] at this
      by_cases hsend : m.pc w = .send v'
      · obtain ⟨h1, h2, h3⟩ := hp.send hsend
        simp [hpc, Chan.recv, h1, h2] at he
      rcases hp.content hsend with ⟨hc1, hc2⟩ | ⟨hc1, k, hc2, hc3⟩
      · simp only [hpc, Chan.recv, hc1, Option.some.injEq, Prod.mk.injEq] at he
        obtain ⟨rfl, rfl⟩ := he
        refine ⟨h.hist.goto_ret i _ _ _ _ (by rw [hpc]; rfl) (by rw [hpc]; rfl) rfl, hbool _ (by simp) _ _, hreads _ (by simp) _ _, ?_⟩
        refine Or.inr ⟨w, v', hp.wrote, hp.cap, ?_, ?_, ?_, ?_, ?_⟩
        · simp only [CSt.goto, upd_ne _ _ hiw]; exact hp.winner
        · intro j w' hj
          by_cases hji : j = i
          · subst hji; simp [CSt.goto, CPC.won] at hj
          · simp only [CSt.goto, upd_ne _ _ hji] at hj; exact hp.only j w' hj
        · simp only [CSt.goto, upd_ne _ _ hiw]; intro h'; exact absurd h' hsend
        · simp only [CSt.goto, upd_ne _ _ hiw]; exact hp.closed
        · intro _
          refine Or.inr ⟨rfl, i, by simp [CSt.goto], ?_⟩
          intro k' r hk
          by_cases hki : k' = i
          · exact Or.inl hki
          · simp only [CSt.goto, upd_ne _ _ hki] at hk; exact absurd hk (hc2 k' r)
      · cases hcl : m.ch.closed with
        | false => simp [hpc, Chan.recv, hc1, hcl] at he
        | true =>
          simp only [hpc, Chan.recv, hc1, hcl, if_true, Option.some.injEq, Prod.mk.injEq] at he
          obtain ⟨rfl, rfl⟩ := he
          refine ⟨h.hist.goto_ret i _ _ _ _ (by rw [hpc]; rfl) (by rw [hpc]; rfl) rfl, hbool _ (by simp) _ _, hreads _ (by simp) _ _, ?_⟩
          refine Or.inr ⟨w, v', hp.wrote, hp.cap, ?_, ?_, ?_, ?_, ?_⟩
          · simp only [CSt.goto, upd_ne _ _ hiw]; exact hp.winner
          · intro j w' hj
            by_cases hji : j = i
            · subst hji; simp [CSt.goto, CPC.won] at hj
            · simp only [CSt.goto, upd_ne _ _ hji] at hj; exact hp.only j w' hj
          · simp only [CSt.goto, upd_ne _ _ hiw]; intro h'; exact absurd h' hsend
          · simp only [CSt.goto, upd_ne _ _ hiw]; exact hp.closed
          · intro _
            have hki : k ≠ i := by rintro rfl; rw [hpc] at hc2; simp at hc2
            refine Or.inr ⟨hc1, k, by simp only [CSt.goto, upd_ne _ _ hki]; exact hc2, ?_⟩
            intro k' r hk
            by_cases hk' : k' = i
            · subst hk'
              simp only [CSt.goto, upd_same, CPC.doneR.injEq] at hk
              exact Or.inr ⟨hk.symm, hcl⟩
            · simp only [CSt.goto, upd_ne _ _ hk'] at hk; exact hc3 k' r hk

theorem cinv {m : CSt α} {H : List (Ev (COp α) (CRes α))} (h : (chanMachine (α := α)).Exec m H) : CInv m H := by
  induction h with
  | init =>
    refine ⟨⟨by simp [chanMachine, newChan, CPC.op], by simp [chanMachine, newChan, CPC.res]⟩, by simp [chanMachine, newChan], by simp [chanMachine, newChan],
      Or.inl ⟨rfl, rfl, fun _ => rfl, by simp [chanMachine, newChan], by simp [chanMachine, newChan]⟩⟩
  | tau _ hs ih => have := cinv_step ih hs; simpa using this
  | ev _ hs ih => exact cinv_step ih hs

theorem CInv.winner_of_ret {m : CSt α} {H : List (Ev (COp α) (CRes α))} (hc : CInv m H) {i : Nat}
    (hi : Ev.ret i (.ok true) ∈ H) : ∃ v, m.pc i = .doneW v (.ok true) := by
  rw [hc.hist.ret] at hi
  cases hpc : m.pc i with
  | doneW v r => rw [hpc] at hi; simp only [CPC.res, Option.some.injEq] at hi; subst hi; exact ⟨v, rfl⟩
  | doneR r =>
    rw [hpc] at hi; simp only [CPC.res, Option.some.injEq] at hi; subst hi
    obtain ⟨o, ho⟩ := hc.reads i _ hpc
    simp at ho
  | _ => rw [hpc] at hi; simp [CPC.res] at hi

/-- Two writers race, the second one wins; two receives: one gets the value, the other finds the channel closed. -/
def demoH : List (Ev (COp Nat) (CRes Nat)) :=
  [.inv 1 (.write 7), .inv 2 (.write 8), .ret 1 (.ok false), .inv 3 .recv, .ret 3 (.got (some 8)), .inv 4 .recv, .ret 2 (.ok true), .ret 4 (.got none)]

theorem demo : ∃ m, (chanMachine (α := Nat)).Exec m demoH :=
  Mach.exists_exec _ [.inv 1 (.write 7), .inv 2 (.write 8), .run 2, .run 1, .run 1, .inv 3 .recv, .run 2, .run 3, .inv 4 .recv, .run 2, .run 2, .run 4] _ rfl

/-- C09: at most one `Write` returns true. -/
theorem C09_at_most_one {m : CSt α} {H : List (Ev (COp α) (CRes α))} (h : (chanMachine (α := α)).Exec m H) (i j : Nat)
    (hi : Ev.ret i (.ok true) ∈ H) (hj : Ev.ret j (.ok true) ∈ H) : i = j := by
  have hc := cinv h
  obtain ⟨v, hv⟩ := hc.winner_of_ret hi
  obtain ⟨v', hv'⟩ := hc.winner_of_ret hj
  rcases hc.phase with hp | ⟨w, u, hp⟩
  · exact absurd hv (hp.noret i v _).2
  · rw [hp.only i v (by rw [hv]; rfl), hp.only j v' (by rw [hv']; rfl)]

example (i : Nat) (h : Ev.ret i (.ok true) ∈ demoH) : i = 2 := have ⟨_, hd⟩ := demo; C09_at_most_one hd i 2 h (by simp [demoH])

/-- The winner's call in the history. -/
theorem Won.inv_mem {m : CSt α} {H : List (Ev (COp α) (CRes α))} (hc : CInv m H) {w : Nat} {u : α} (hp : Won m w u) :
    Ev.inv w (.write u) ∈ H := by
  rw [hc.hist.inv]
  have := hp.winner
  cases hpc : m.pc w with
  | idle | cas _ | recv | doneR _ => rw [hpc] at this; simp [CPC.won] at this
  | send _ | close _ => rw [hpc] at this; simpa [CPC.won, CPC.op] using this
  | ret v r | doneW v r =>
    obtain ⟨b, rfl⟩ := hc.bool w v r (by simp [hpc])
    rw [hpc] at this
    cases b <;> simp_all [CPC.won, CPC.op]

/-- C09: if at least one `Write` was called and all `Write` calls have returned, one of them returned true. -/
theorem C09_exactly_one {m : CSt α} {H : List (Ev (COp α) (CRes α))} (h : (chanMachine (α := α)).Exec m H) (i : Nat) (v : α)
    (hi : Ev.inv i (.write v) ∈ H) (hall : ∀ j w, Ev.inv j (.write w) ∈ H → ∃ r, Ev.ret j r ∈ H) :
    ∃ j w, Ev.inv j (.write w) ∈ H ∧ Ev.ret j (.ok true) ∈ H := by
  have hc := cinv h
  rcases hc.phase with hp | ⟨w, u, hp⟩
  · obtain ⟨r, hr⟩ := hall i v hi
    rw [hc.hist.inv] at hi
    rw [hc.hist.ret] at hr
    cases hpc : m.pc i with
    | doneW v r => exact absurd hpc (hp.noret i v r).2
    | _ => rw [hpc] at hi hr; simp [CPC.op, CPC.res] at hi hr
  · have hw := hp.inv_mem hc
    obtain ⟨r, hr⟩ := hall w u hw
    refine ⟨w, u, hw, ?_⟩
    rw [hc.hist.ret] at hr ⊢
    have hwin := hp.winner
    cases hpc : m.pc w with
    | doneW v r =>
      obtain ⟨b, rfl⟩ := hc.bool w v r (by simp [hpc])
      rw [hpc] at hwin
      cases b <;> simp_all [CPC.won, CPC.res]
    | _ => rw [hpc] at hr hwin; simp [CPC.won, CPC.res] at hr hwin

example : ∃ j w, Ev.inv j (.write w) ∈ demoH ∧ Ev.ret j (.ok true) ∈ demoH := by
  obtain ⟨_, hd⟩ := demo
  refine C09_exactly_one hd 1 7 (by simp [demoH]) ?_
  intro j w hj
  simp only [demoH, List.mem_cons, Ev.inv.injEq, reduceCtorEq, false_or, or_false, List.not_mem_nil, COp.write.injEq, and_false] at hj
  rcases hj with ⟨rfl, _⟩ | ⟨rfl, _⟩
  · exact ⟨.ok false, by simp [demoH]⟩
  · exact ⟨.ok true, by simp [demoH]⟩

/-- C09: no `Write` panics or returns anything but a bool. -/
theorem C09_no_panic {m : CSt α} {H : List (Ev (COp α) (CRes α))} (h : (chanMachine (α := α)).Exec m H) (i : Nat) (v : α) (r : CRes α)
    (hi : Ev.inv i (.write v) ∈ H) (hr : Ev.ret i r ∈ H) : ∃ b, r = .ok b := by
  have hc := cinv h
  rw [hc.hist.inv] at hi
  rw [hc.hist.ret] at hr
  cases hpc : m.pc i with
  | doneW v r' =>
    rw [hpc] at hr; simp only [CPC.res, Option.some.injEq] at hr; subst hr
    exact hc.bool i v r' (Or.inr hpc)
  | _ => rw [hpc] at hi hr; simp [CPC.op, CPC.res] at hi hr

example : ∃ b, (CRes.ok true : CRes Nat) = .ok b := have ⟨_, hd⟩ := demo; C09_no_panic hd 2 8 _ (by simp [demoH]) (by simp [demoH])

/-- C09: no `Write` ever blocks: while it has not returned it can take its next step, whatever the others do. -/
theorem C09_write_never_blocks {m : CSt α} {H : List (Ev (COp α) (CRes α))} (h : (chanMachine (α := α)).Exec m H) (i : Nat) (v : α)
    (hi : Ev.inv i (.write v) ∈ H) (hr : ∀ r, Ev.ret i r ∉ H) : ∃ l m', (chanMachine (α := α)).next m i 0 = some (l, m') := by
  have hc := cinv h
  rw [hc.hist.inv] at hi
  simp only [chanMachine, cNext]
  cases hpc : m.pc i with
  | idle => rw [hpc] at hi; simp [CPC.op] at hi
  | doneW v r => exact absurd ((hc.hist.ret i r).mpr (by rw [hpc]; rfl)) (hr r)
  | doneR r => exact absurd ((hc.hist.ret i r).mpr (by rw [hpc]; rfl)) (hr r)
  | recv => rw [hpc] at hi; simp [CPC.op] at hi
  | cas w => simp
  | ret w r => simp
  | close w => cases m.ch.close <;> simp
  | send u =>
    rcases hc.phase with hp | ⟨w, v', hp⟩
    · have := hp.nobody i; rw [hpc] at this; simp [CPC.won] at this
    · have hiw : i = w := hp.only i u (by rw [hpc]; rfl)
      subst hiw
      have hv : u = v' := by have := hp.winner; rw [hpc] at this; simpa [CPC.won] using this
      subst hv
      obtain ⟨h1, h2, _⟩ := hp.send hpc
      simp [Chan.send, h1, h2, hp.cap]

/-- The winner is between its send and its close, the loser has not started. -/
example : ∃ m, (chanMachine (α := Nat)).Exec m [.inv 1 (.write 7), .inv 2 (.write 8)] ∧ ∃ l m', (chanMachine (α := Nat)).next m 2 0 = some (l, m') := by
  obtain ⟨m, h⟩ := Mach.exists_exec (chanMachine (α := Nat)) [.inv 1 (.write 7), .inv 2 (.write 8), .run 2, .run 2] _ rfl
  exact ⟨m, h, C09_write_never_blocks h 2 8 (by simp) (by simp)⟩

/-- C09: a received value is the value of one `Write`, the only one that can ever report success (every other `Write`
that has returned returned false); and it is received only once. -/
theorem C09_received {m : CSt α} {H : List (Ev (COp α) (CRes α))} (h : (chanMachine (α := α)).Exec m H) (k : Nat) (v : α)
    (hk : Ev.ret k (.got (some v)) ∈ H) :
    (∃ i, Ev.inv i (.write v) ∈ H ∧ (∀ r, Ev.ret i r ∈ H → r = .ok true) ∧
      ∀ j w r, Ev.inv j (.write w) ∈ H → Ev.ret j r ∈ H → j ≠ i → r = .ok false) ∧
    ∀ k' v', Ev.ret k' (.got (some v')) ∈ H → k' = k := by
  have hc := cinv h
  have hpcr : ∀ k v, Ev.ret k (.got (some v)) ∈ H → m.pc k = .doneR (.got (some v)) := by
    intro k v hk
    rw [hc.hist.ret] at hk
    cases hpc : m.pc k with
    | doneR r => rw [hpc] at hk; simp only [CPC.res, Option.some.injEq] at hk; rw [hk]
    | doneW u r =>
      rw [hpc] at hk; simp only [CPC.res, Option.some.injEq] at hk; subst hk
      obtain ⟨b, hb⟩ := hc.bool k u _ (Or.inr hpc); simp at hb
    | _ => rw [hpc] at hk; simp [CPC.res] at hk
  rcases hc.phase with hp | ⟨w, u, hp⟩
  · exact absurd (hpcr k v hk) (hp.unread k _)
  · have hns : m.pc w ≠ .send u := fun hs => absurd (hpcr k v hk) ((hp.send hs).2.2 k _)
    rcases hp.content hns with ⟨_, hc2⟩ | ⟨_, k0, hc2, hc3⟩
    · exact absurd (hpcr k v hk) (hc2 k _)
    · have huniq : ∀ k' v', Ev.ret k' (.got (some v')) ∈ H → k' = k0 := by
        intro k' v' hk'
        rcases hc3 k' _ (hpcr k' v' hk') with h' | ⟨h', _⟩
        · exact h'
        · simp at h'
      have hkk := huniq k v hk
      subst hkk
      have hvu : v = u := by have := hpcr k v hk; rw [hc2] at this; simpa using this.symm
      subst hvu
      refine ⟨⟨w, hp.inv_mem hc, ?_, ?_⟩, huniq⟩
      · intro r hr
        rw [hc.hist.ret] at hr
        have hwin := hp.winner
        cases hpc : m.pc w with
        | doneW x r' =>
          obtain ⟨b, rfl⟩ := hc.bool w x r' (by simp [hpc])
          rw [hpc] at hwin hr
          cases b <;> simp_all [CPC.won, CPC.res]
        | _ => rw [hpc] at hr hwin; simp [CPC.won, CPC.res] at hr hwin
      · intro j x r hj hr hne
        obtain ⟨b, rfl⟩ := C09_no_panic h j x r hj hr
        cases b with
        | false => rfl
        | true =>
          obtain ⟨y, hy⟩ := hc.winner_of_ret hr
          exact absurd (hp.only j y (by rw [hy]; rfl)) hne

example : ∀ k' v', Ev.ret k' (.got (some v')) ∈ demoH → k' = 3 :=
  have ⟨_, hd⟩ := demo; (C09_received hd 3 8 (by simp [demoH])).2

/-- C09: a receive finds the channel closed only after the one value has been received. -/
theorem C09_closed_after_value {m : CSt α} {H : List (Ev (COp α) (CRes α))} (h : (chanMachine (α := α)).Exec m H) (k : Nat)
    (hk : Ev.ret k (.got none) ∈ H) : ∃ k' v, Ev.ret k' (.got (some v)) ∈ H := by
  have hc := cinv h
  have hpc : m.pc k = .doneR (.got none) := by
    rw [hc.hist.ret] at hk
    cases hpc : m.pc k with
    | doneR r => rw [hpc] at hk; simp only [CPC.res, Option.some.injEq] at hk; rw [hk]
    | doneW u r =>
      rw [hpc] at hk; simp only [CPC.res, Option.some.injEq] at hk; subst hk
      obtain ⟨b, hb⟩ := hc.bool k u _ (Or.inr hpc); simp at hb
    | _ => rw [hpc] at hk; simp [CPC.res] at hk
  rcases hc.phase with hp | ⟨w, u, hp⟩
  · exact absurd hpc (hp.unread k _)
  · have hns : m.pc w ≠ .send u := fun hs => absurd hpc ((hp.send hs).2.2 k _)
    rcases hp.content hns with ⟨_, hc2⟩ | ⟨_, k0, hc2, _⟩
    · exact absurd hpc (hc2 k _)
    · exact ⟨k0, u, (hc.hist.ret k0 _).mpr (by rw [hc2]; rfl)⟩

example : ∃ k' v, Ev.ret k' (.got (some v)) ∈ demoH := have ⟨_, hd⟩ := demo; C09_closed_after_value hd 4 (by simp [demoH])

/-- C09: once a `Write` has returned true, no receive blocks. -/
theorem C09_recv_never_blocks {m : CSt α} {H : List (Ev (COp α) (CRes α))} (h : (chanMachine (α := α)).Exec m H) (i k : Nat)
    (hi : Ev.ret i (.ok true) ∈ H) (hk : Ev.inv k .recv ∈ H) (hr : ∀ r, Ev.ret k r ∉ H) :
    ∃ o m', (chanMachine (α := α)).next m k 0 = some (some (.ret k (.got o)), m') := by
  have hc := cinv h
  rw [hc.hist.inv] at hk
  have hpc : m.pc k = .recv := by
    cases hpc : m.pc k with
    | recv => rfl
    | doneR r => exact absurd ((hc.hist.ret k r).mpr (by rw [hpc]; rfl)) (hr r)
    | _ => rw [hpc] at hk; simp [CPC.op] at hk
  obtain ⟨v, hv⟩ := hc.winner_of_ret hi
  rcases hc.phase with hp | ⟨w, u, hp⟩
  · exact absurd hv (hp.noret i v _).2
  · have hiw : i = w := hp.only i v (by rw [hv]; rfl)
    subst hiw
    have hcl : m.ch.closed = true := (hp.closed (by rw [hv]; simp)).mpr (by rw [hv]; simp)
    simp only [chanMachine, cNext, hpc]
    cases hb : m.ch.buf with
    | nil => simp [Chan.recv, hb, hcl]
    | cons x xs => simp [Chan.recv, hb]

example : ∃ m, (chanMachine (α := Nat)).Exec m [.inv 2 (.write 8), .inv 3 .recv, .ret 2 (.ok true)] ∧
    ∃ o m', (chanMachine (α := Nat)).next m 3 0 = some (some (.ret 3 (.got o)), m') := by
  obtain ⟨m, h⟩ := Mach.exists_exec (chanMachine (α := Nat)) [.inv 2 (.write 8), .inv 3 .recv, .run 2, .run 2, .run 2, .run 2] _ rfl
  exact ⟨m, h, C09_recv_never_blocks h 2 3 (by simp) (by simp) (by simp)⟩

/-! ## `Value` -/

/-- The write-once cell of the English property: empty or holding a value forever. -/
def cellSpec : Spec (Option (Dyn α)) (VOp α) (VRes α) where
  init := none
  step s op r s' :=
    match op with
    | .value => r = .val s ∧ s' = s
    | .write none => r = .panic ∧ s' = s
    | .write (some d) =>
      match s with
      | none => r = .ok true ∧ s' = some d
      | some c => s' = s ∧ ((c.type = d.type ∧ r = .ok false) ∨ (c.type ≠ d.type ∧ r = .panic))

/-- Proof only: part of an invariant or simulation; models no code. -/
def VStFact (g : Ghost (Option (Dyn α)) (VOp α) (VRes α)) (i : Nat) : VPC α → Prop
  | .idle => g.st i = .idle
  | .cas v => g.st i = .invoked (.write v)
  | .load => g.st i = .invoked .value
  | .ret op r => g.st i = .committed op r
  | .done => True

/-- Proof only: part of an invariant or simulation; models no code. -/
structure VSim (m : VSt α) (g : Ghost (Option (Dyn α)) (VOp α) (VRes α)) : Prop where
  cur : m.v = g.cur
  st : ∀ i, VStFact g i (m.pc i)

theorem vsim_step (m : VSt α) (g : Ghost (Option (Dyn α)) (VOp α) (VRes α)) (l : Option (Ev (VOp α) (VRes α))) (m' : VSt α)
    (h : VSim m g) (hs : (valueMachine (α := α)).Step m l m') :
    ∃ g', GSteps cellSpec g g' ∧ g'.hist = g.hist ++ l.toList ∧ VSim m' g' := by
  have other : ∀ (g' : Ghost (Option (Dyn α)) (VOp α) (VRes α)) (i : Nat) (p : VPC α), (∀ j, j ≠ i → g'.st j = g.st j) → VStFact g' i p →
      ∀ j, VStFact g' j (upd m.pc i p j) := by
    intro g' i p h1 h2 j
    by_cases hj : j = i
    · subst hj; simpa using h2
    · rw [upd_ne _ _ hj]
      have := h.st j
      cases hp : m.pc j <;> rw [hp] at this <;> simp only [VStFact, h1 j hj] at this ⊢ <;> exact this
  cases hs with
  | inv i op _ he =>
    simp only [valueMachine, vInvoke] at he
    split at he
    · rename_i hpc
      simp only [Option.some.injEq] at he
      subst he
      have hidle : g.st i = .idle := by have := h.st i; rw [hpc] at this; exact this
      refine ⟨g.invoke i op, .step (.refl g) (.invoke g i op hidle), rfl, h.cur, ?_⟩
      refine other _ i _ (fun j hj => by simp [Ghost.invoke, upd_ne _ _ hj]) ?_
      cases op <;> simp [VStFact, Ghost.invoke]
    · simp at he
  | run i c _ _ he =>
    simp only [valueMachine, vNext] at he
    have hst := h.st i
    have commit : ∀ op r s', g.st i = .invoked op → cellSpec.step g.cur op r s' →
        ∃ g', GSteps cellSpec g g' ∧ g'.hist = g.hist ++ (none : Option (Ev (VOp α) (VRes α))).toList ∧ VSim ⟨s', upd m.pc i (.ret op r)⟩ g' := by
      intro op r s' h1 h2
      refine ⟨g.commit i op r s', .step (.refl g) (.commit g i op r s' h1 h2), by simp [Ghost.commit], by simp [Ghost.commit, Ghost.cur], ?_⟩
      exact other _ i _ (fun j hj => by simp [Ghost.commit, upd_ne _ _ hj]) (by simp [VStFact, Ghost.commit])
    cases hpc : m.pc i with
    | idle => simp [hpc] at he
    | done => simp [hpc] at he
    | cas v =>
      simp only [hpc, Option.some.injEq, Prod.mk.injEq] at he hst
      obtain ⟨rfl, rfl⟩ := he
      refine commit _ _ _ hst ?_
      rw [← h.cur]
      cases v with
      | none => simp [cellSpec, casNil]
      | some d =>
        cases hv : m.v with
        | none => simp [cellSpec, casNil]
        | some c =>
          by_cases ht : c.type = d.type
          · simp [cellSpec, casNil, ht]
          · simp [cellSpec, casNil, ht]
    | load =>
      simp only [hpc, Option.some.injEq, Prod.mk.injEq] at he hst
      obtain ⟨rfl, rfl⟩ := he
      exact commit _ _ _ hst ⟨by rw [h.cur], h.cur⟩
    | ret op r =>
      simp only [hpc, Option.some.injEq, Prod.mk.injEq] at he hst
      obtain ⟨rfl, rfl⟩ := he
      refine ⟨g.retC i r, .step (.refl g) (.retC g i op r hst), rfl, h.cur, ?_⟩
      exact other _ i _ (fun j hj => by simp [Ghost.retC, upd_ne _ _ hj]) trivial

/-- A run with two writers and two readers. -/
def demoV : List (Ev (VOp Nat) (VRes Nat)) :=
  [.inv 1 .value, .inv 2 (.write (some ⟨0, 7⟩)), .inv 3 (.write (some ⟨0, 8⟩)),
    .ret 2 (.ok false), .ret 1 (.val none), .inv 4 .value, .ret 4 (.val (some ⟨0, 8⟩))]

theorem demoValue : ∃ m, (valueMachine (α := Nat)).Exec m demoV :=
  Mach.exists_exec _ [.inv 1 .value, .inv 2 (.write (some ⟨0, 7⟩)), .inv 3 (.write (some ⟨0, 8⟩)), .run 1, .run 3, .run 2, .run 2, .run 1,
    .inv 4 .value, .run 4, .run 4] _ rfl

/-- Every history of concurrent `Write` and `Value` calls is linearizable to the write-once cell. -/
theorem C10_linearizable {m : VSt α} {H : List (Ev (VOp α) (VRes α))} (h : (valueMachine (α := α)).Exec m H) :
    Linearizable cellSpec H := by
  obtain ⟨g, h1, h2, _⟩ := simulate VSim (by constructor <;> simp [valueMachine, newValue, Ghost.init, Ghost.cur, cellSpec, VStFact])
    (fun m g l m' _ hs hst => vsim_step m g l m' hs hst) h
  rw [← h2]; exact h1.linearizable

example : Linearizable cellSpec demoV := have ⟨_, h⟩ := demoValue; C10_linearizable h

theorem runs_full {T : Nat} {d : Dyn α} (hd : d.type = T) : ∀ (L : List (Nat × VOp α × VRes α)) (s : Option (Dyn α)),
    (∀ x ∈ L, ∀ v, x.2.1 = .write v → ∃ e, v = some e ∧ e.type = T) → Runs cellSpec (some d) L s →
    ∀ x ∈ L, (∀ v, x.2.1 = .write v → x.2.2 = .ok false) ∧ (x.2.1 = .value → x.2.2 = .val (some d)) := by
  intro L
  induction L with
  | nil => intro s _ _ x hx; simp at hx
  | cons y L ih =>
    intro s hty hr x hx
    cases hr with
    | cons hstep hrest =>
      rename_i s1 i op r
      cases op with
      | value =>
        obtain ⟨rfl, rfl⟩ := hstep
        rw [List.mem_cons] at hx
        rcases hx with rfl | hx
        · simp
        · exact ih s (fun x hx => hty x (List.mem_cons_of_mem _ hx)) hrest x hx
      | write v =>
        obtain ⟨e, rfl, he⟩ := hty _ List.mem_cons_self v rfl
        simp only [cellSpec] at hstep
        obtain ⟨rfl, hstep⟩ := hstep
        rw [List.mem_cons] at hx
        rcases hx with rfl | hx
        · rcases hstep with ⟨_, rfl⟩ | ⟨h', _⟩
          · simp
          · exact absurd (hd.trans he.symm) h'
        · exact ih s (fun x hx => hty x (List.mem_cons_of_mem _ hx)) hrest x hx

theorem runs_empty {T : Nat} : ∀ (L : List (Nat × VOp α × VRes α)) (s : Option (Dyn α)),
    (∀ x ∈ L, ∀ v, x.2.1 = .write v → ∃ e, v = some e ∧ e.type = T) → Runs cellSpec none L s →
    (∀ x ∈ L, x.2.1 = .value ∧ x.2.2 = .val none) ∨
    ∃ L₁ w d L₂, L = L₁ ++ (w, .write (some d), .ok true) :: L₂ ∧ d.type = T ∧ (∀ x ∈ L₁, x.2.1 = .value ∧ x.2.2 = .val none) ∧
      ∀ x ∈ L₂, (∀ v, x.2.1 = .write v → x.2.2 = .ok false) ∧ (x.2.1 = .value → x.2.2 = .val (some d)) := by
  intro L
  induction L with
  | nil => intro s _ _; exact Or.inl (by simp)
  | cons y L ih =>
    intro s hty hr
    have hty' := fun x hx => hty x (List.mem_cons_of_mem y hx)
    cases hr with
    | cons hstep hrest =>
      rename_i s1 i op r
      cases op with
      | value =>
        obtain ⟨rfl, rfl⟩ := hstep
        rcases ih s hty' hrest with h' | ⟨L₁, w, d, L₂, rfl, h1, h2, h3⟩
        · refine Or.inl fun x hx => ?_
          rw [List.mem_cons] at hx
          rcases hx with rfl | hx
          · exact ⟨rfl, rfl⟩
          · exact h' x hx
        · refine Or.inr ⟨_ :: L₁, w, d, L₂, rfl, h1, fun x hx => ?_, h3⟩
          rw [List.mem_cons] at hx
          rcases hx with rfl | hx
          · exact ⟨rfl, rfl⟩
          · exact h2 x hx
      | write v =>
        obtain ⟨e, rfl, he⟩ := hty _ List.mem_cons_self v rfl
        simp only [cellSpec] at hstep
        obtain ⟨rfl, rfl⟩ := hstep
        exact Or.inr ⟨[], i, e, L, rfl, he, by simp, runs_full he L s hty' hrest⟩

/-- C10: for non-nil values of one dynamic type, either nothing but nil has been observed, or there is exactly one
winning `Write`: it alone returns true, every other `Write` returns false, every `Value` returns nil or the winner's
value, and nil only if neither the winner nor any call that observed the write had returned before it was called. -/
theorem C10_write_once {m : VSt α} {H : List (Ev (VOp α) (VRes α))} (h : (valueMachine (α := α)).Exec m H) (T : Nat)
    (hty : ∀ i v, Ev.inv i (.write v) ∈ H → ∃ d, v = some d ∧ d.type = T) :
    (∀ i r, Ev.ret i r ∈ H → r = .val none) ∨
    ∃ w d, Ev.inv w (.write (some d)) ∈ H ∧
      (∀ r, Ev.ret w r ∈ H → r = .ok true) ∧
      (∀ j r, Ev.ret j r ∈ H → j ≠ w → r = .ok false ∨ r = .val none ∨ r = .val (some d)) ∧
      (∀ j, Ev.ret j (.val none) ∈ H → ¬ Before H w j ∧ ∀ k r, Ev.ret k r ∈ H → Before H k j → r = .val none) := by
  obtain ⟨L, h1, h2, h3, ⟨s, h4⟩, h5⟩ := C10_linearizable h
  have hty' : ∀ x ∈ L, ∀ v, x.2.1 = .write v → ∃ e, v = some e ∧ e.type = T := by
    intro x hx v hv
    have := h2 x hx
    rw [hv] at this
    exact hty _ _ this
  rcases runs_empty L s hty' h4 with hn | ⟨L₁, w, d, L₂, rfl, hd, hL1, hL2⟩
  · left
    intro i r hr
    obtain ⟨op, hop⟩ := h3 i r hr
    exact (hn _ hop).2
  · right
    have hnod : ∀ op r, (w, op, r) ∈ L₁ ++ (w, VOp.write (some d), VRes.ok true) :: L₂ → r = .ok true := by
      intro op r hm
      have := List.inj_on_of_nodup_map h1 hm (List.mem_append_right _ List.mem_cons_self) rfl
      simp only [Prod.mk.injEq] at this
      exact this.2.2
    have hcases : ∀ j op r, (j, op, r) ∈ L₂ → r = .ok false ∨ r = .val (some d) := by
      intro j op r hm
      cases op with
      | value => exact Or.inr ((hL2 _ hm).2 rfl)
      | write v => exact Or.inl ((hL2 _ hm).1 v rfl)
    refine ⟨w, d, h2 _ (List.mem_append_right _ List.mem_cons_self), ?_, ?_, ?_⟩
    · intro r hr
      obtain ⟨op, hop⟩ := h3 w r hr
      exact hnod op r hop
    · intro j r hr hj
      obtain ⟨op, hop⟩ := h3 j r hr
      rw [List.mem_append, List.mem_cons] at hop
      rcases hop with hop | hop | hop
      · exact Or.inr (Or.inl (hL1 _ hop).2)
      · simp only [Prod.mk.injEq] at hop; exact absurd hop.1 hj
      · rcases hcases j op r hop with h' | h'
        · exact Or.inl h'
        · exact Or.inr (Or.inr h')
    · intro j hj
      obtain ⟨op, hop⟩ := h3 j _ hj
      have hjL1 : (j, op, VRes.val none) ∈ L₁ := by
        rw [List.mem_append, List.mem_cons] at hop
        rcases hop with hop | hop | hop
        · exact hop
        · simp at hop
        · rcases hcases j op _ hop with h' | h' <;> simp at h'
      rw [List.pairwise_append] at h5
      obtain ⟨_, _, h5⟩ := h5
      refine ⟨h5 _ hjL1 _ List.mem_cons_self, ?_⟩
      intro k r hk hb
      obtain ⟨op', hop'⟩ := h3 k r hk
      rw [List.mem_append, List.mem_cons] at hop'
      rcases hop' with hop' | hop' | hop'
      · exact (hL1 _ hop').2
      · exact absurd hb (by simp only [Prod.mk.injEq] at hop'; rw [hop'.1]; exact h5 _ hjL1 _ List.mem_cons_self)
      · exact absurd hb (h5 _ hjL1 _ (List.mem_cons_of_mem _ hop'))

/-- All values of the run above have dynamic type 0; something else than nil has been observed, so that there is a winner. -/
example : ∃ w d, Ev.inv w (.write (some d)) ∈ demoV ∧ ∀ r, Ev.ret w r ∈ demoV → r = .ok true := by
  obtain ⟨_, h⟩ := demoValue
  rcases C10_write_once h 0 (by
    intro i v hv
    simp only [demoV, List.mem_cons, Ev.inv.injEq, reduceCtorEq, false_or, or_false, List.not_mem_nil, VOp.write.injEq, and_false] at hv
    rcases hv with ⟨_, rfl⟩ | ⟨_, rfl⟩ <;> exact ⟨_, rfl, rfl⟩) with h' | ⟨w, d, h1, h2, _⟩
  · exact absurd (h' 2 (.ok false) (by simp [demoV])) (by simp)
  · exact ⟨w, d, h1, h2⟩

/-- The hypothesis is needed: a nil value or a second value of another dynamic type makes `Write` panic. -/
theorem C10_panics_refuted :
    (∃ m, (valueMachine (α := Nat)).Exec m [.inv 1 (.write none), .ret 1 .panic]) ∧
    (∃ m, (valueMachine (α := Nat)).Exec m [.inv 1 (.write (some ⟨0, 7⟩)), .ret 1 (.ok true), .inv 2 (.write (some ⟨1, 7⟩)), .ret 2 .panic]) :=
  ⟨Mach.exists_exec _ [.inv 1 (.write none), .run 1, .run 1] _ rfl,
   Mach.exists_exec _ [.inv 1 (.write (some ⟨0, 7⟩)), .run 1, .run 1, .inv 2 (.write (some ⟨1, 7⟩)), .run 2, .run 2] _ rfl⟩

end Verif.XOnce

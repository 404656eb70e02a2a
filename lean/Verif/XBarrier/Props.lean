import Verif.XBarrier.Model
/-! # Property theorems for `xbarrier` (C11, C12) -/
namespace Verif.XBarrier
open Verif.Go Verif.Conc

variable {α : Type}

/-- What is known about a sending call with value `u` and success result `r`. -/
def SendOK (g : G α) (i : Nat) (u : α) (r : Res α) : Pt ⊕ Res α → Prop
  | .inl .wait => ((i, u) ∈ g.ch.sendq ∧ i ∉ g.sends.map (·.1)) ∨ (i ∉ g.ch.sendq.map (·.1) ∧ (i, u) ∈ g.sends)
  | .inl _ => i ∉ g.sends.map (·.1) ∧ i ∉ g.ch.sendq.map (·.1)
  | .inr (.ok false) => i ∉ g.sends.map (·.1) ∧ i ∉ g.ch.sendq.map (·.1) ∧ g.wdone = true ∧ r = .ok true
  | .inr .panic => i ∉ g.sends.map (·.1) ∧ g.ch.closed = true
  | .inr r' => r' = r ∧ (i, u) ∈ g.sends ∧ i ∉ g.ch.sendq.map (·.1)

/-- What is known about a receiving call. -/
def RecvOK (g : G α) (i : Nat) (rd : Bool) : Pt ⊕ Res α → Prop
  | .inl _ => i ∉ g.recvs.map (·.1)
  | .inr (.val (some x) true) => (i, x) ∈ g.recvs
  | .inr (.val none true) => i ∉ g.recvs.map (·.1) ∧ g.ch.closed = true ∧ g.ch.buf = []
  | .inr (.val none false) => i ∉ g.recvs.map (·.1) ∧ g.rdone = true ∧ rd = true
  | .inr _ => False

/-- Call `i` has sent nothing, and does not wait to. -/
def NoSend (g : G α) (i : Nat) : Prop := i ∉ g.sends.map (·.1) ∧ i ∉ g.ch.sendq.map (·.1)
/-- Call `i` has received nothing. -/
def NoRecv (g : G α) (i : Nat) : Prop := i ∉ g.recvs.map (·.1)

/-- What is known about a call. -/
def CallOK (g : G α) (i : Nat) : Option (Op α × (Pt ⊕ Res α)) → Prop
  | none => NoSend g i ∧ NoRecv g i
  | some (.write u, x) => SendOK g i u (.ok true) x ∧ NoRecv g i
  | some (.send u, x) => SendOK g i u .unit x ∧ NoRecv g i
  | some (.read, x) => RecvOK g i true x ∧ NoSend g i
  | some (.recv, x) => RecvOK g i false x ∧ NoSend g i
  | some (_, _) => NoSend g i ∧ NoRecv g i

/-- Proof only: part of an invariant or simulation; models no code. -/
structure Inv (g : G α) (v : View (Op α) (Res α) Pt) (H : List (Ev (Op α) (Res α))) : Prop where
  cons : g.sends.map (·.2) = g.recvs.map (·.2) ++ g.ch.buf
  sendsNd : (g.sends.map (·.1)).Nodup
  recvsNd : (g.recvs.map (·.1)).Nodup
  qNd : (g.ch.sendq.map (·.1)).Nodup
  calls : ∀ i, CallOK g i (v i)
  wdone : g.wdone = true ↔ ∃ c, v c = some (.cancelW, .inr .unit)
  rdone : g.rdone = true ↔ ∃ c, v c = some (.cancelR, .inr .unit)
  cancelW : ∀ c r, v c = some (.cancelW, .inr r) → r = .unit
  cancelR : ∀ c r, v c = some (.cancelR, .inr r) → r = .unit
  rets : ∀ i r, Ev.ret i r ∈ H → ∃ op, v i = some (op, .inr r)
  lateW : ∀ c i x u, v c = some (.cancelW, .inr .unit) → v i = some (.write u, x) → Before H c i → x = .inl .check ∨ x = .inr (.ok false)
  lateR : ∀ c i x, v c = some (.cancelR, .inr .unit) → v i = some (.read, x) → Before H c i → x = .inl .check ∨ x = .inr (.val none false)
  invs : ∀ i op, Ev.inv i op ∈ H → v i ≠ none

/-- Knowledge about a call survives changes that do not concern it. -/
theorem CallOK.frame {g g' : G α} {i : Nat} {x : Option (Op α × (Pt ⊕ Res α))} (h : CallOK g i x)
    (h1 : i ∈ g'.sends.map (·.1) ↔ i ∈ g.sends.map (·.1)) (h1' : ∀ u, (i, u) ∈ g.sends → (i, u) ∈ g'.sends)
    (h2 : i ∈ g'.ch.sendq.map (·.1) ↔ i ∈ g.ch.sendq.map (·.1)) (h2' : ∀ u, (i, u) ∈ g.ch.sendq → (i, u) ∈ g'.ch.sendq)
    (h3 : i ∈ g'.recvs.map (·.1) ↔ i ∈ g.recvs.map (·.1)) (h3' : ∀ u, (i, u) ∈ g.recvs → (i, u) ∈ g'.recvs)
    (h4 : g.wdone = true → g'.wdone = true) (h5 : g.rdone = true → g'.rdone = true)
    (h6 : g.ch.closed = true → g'.ch.closed = true) (h7 : g.ch.closed = true → g.ch.buf = [] → g'.ch.buf = []) : CallOK g' i x := by
  have hs : ∀ u r y, SendOK g i u r y → SendOK g' i u r y := by
    intro u r y hy
    rcases y with p | r'
    · cases p <;> simp only [SendOK, h1, h2] at hy ⊢
      · exact hy
      · exact hy
      · rcases hy with ⟨a, b⟩ | ⟨a, b⟩
        · exact Or.inl ⟨h2' u a, b⟩
        · exact Or.inr ⟨a, h1' u b⟩
    · cases r' with
      | ok b =>
        cases b <;> simp only [SendOK, h1, h2] at hy ⊢
        · exact ⟨hy.1, hy.2.1, h4 hy.2.2.1, hy.2.2.2⟩
        · exact ⟨hy.1, h1' u hy.2.1, hy.2.2⟩
      | val _ _ => simp only [SendOK, h2] at hy ⊢; exact ⟨hy.1, h1' u hy.2.1, hy.2.2⟩
      | unit => simp only [SendOK, h2] at hy ⊢; exact ⟨hy.1, h1' u hy.2.1, hy.2.2⟩
      | panic => simp only [SendOK, h1] at hy ⊢; exact ⟨hy.1, h6 hy.2⟩
  have hr : ∀ rd y, RecvOK g i rd y → RecvOK g' i rd y := by
    intro rd y hy
    rcases y with p | r'
    · simp only [RecvOK, h3] at hy ⊢; exact hy
    · cases r' with
      | ok b => exact hy
      | unit => exact hy
      | panic => exact hy
      | val o b =>
        cases o <;> cases b <;> simp only [RecvOK, h3] at hy ⊢
        · exact ⟨hy.1, h5 hy.2.1, hy.2.2⟩
        · exact ⟨hy.1, h6 hy.2.1, h7 hy.2.1 hy.2.2⟩
        · exact h3' _ hy
  have hns : NoSend g i → NoSend g' i := by unfold NoSend; rw [h1, h2]; exact id
  have hnr : NoRecv g i → NoRecv g' i := by unfold NoRecv; rw [h3]; exact id
  match x, h with
  | none, h => exact ⟨hns h.1, hnr h.2⟩
  | some (.write u, x), h => exact ⟨hs _ _ _ h.1, hnr h.2⟩
  | some (.send u, x), h => exact ⟨hs _ _ _ h.1, hnr h.2⟩
  | some (.read, x), h => exact ⟨hr _ _ h.1, hns h.2⟩
  | some (.recv, x), h => exact ⟨hr _ _ h.1, hns h.2⟩
  | some (.close, x), h => exact ⟨hns h.1, hnr h.2⟩
  | some (.cancelW, x), h => exact ⟨hns h.1, hnr h.2⟩
  | some (.cancelR, x), h => exact ⟨hns h.1, hnr h.2⟩

/-- The part of the invariant that concerns views and histories, for a step of call `i` of operation `op`. -/
theorem Inv.step_of {g g' : G α} {v : View (Op α) (Res α) Pt} {H : List (Ev (Op α) (Res α))} (h : Inv g v H) {i : Nat} {op : Op α}
    {s : Pt} {x : Pt ⊕ Res α} (hv : v i = some (op, .inl s))
    (cons : g'.sends.map (·.2) = g'.recvs.map (·.2) ++ g'.ch.buf)
    (sendsNd : (g'.sends.map (·.1)).Nodup) (recvsNd : (g'.recvs.map (·.1)).Nodup) (qNd : (g'.ch.sendq.map (·.1)).Nodup)
    (self : CallOK g' i (some (op, x))) (others : ∀ j, j ≠ i → CallOK g' j (v j))
    (hw : (op ≠ .cancelW ∧ g'.wdone = g.wdone) ∨ (op = .cancelW ∧ x = .inr .unit ∧ g'.wdone = true))
    (hr : (op ≠ .cancelR ∧ g'.rdone = g.rdone) ∨ (op = .cancelR ∧ x = .inr .unit ∧ g'.rdone = true))
    (lw : ∀ u, op = .write u → s = .check → g.wdone = true → x = .inr (.ok false))
    (lr : op = .read → s = .check → g.rdone = true → x = .inr (.val none false)) :
    Inv g' (upd v i (some (op, x))) H := by
  refine ⟨cons, sendsNd, recvsNd, qNd, ?_, ?_, ?_, ?_, ?_, ?_, ?_, ?_, ?_⟩
  · intro j
    by_cases hj : j = i
    · subst hj; simpa using self
    · rw [upd_ne _ _ hj]; exact others j hj
  · rcases hw with ⟨ho, hw⟩ | ⟨rfl, rfl, hw⟩
    · rw [hw, h.wdone]
      constructor
      · rintro ⟨c, hc⟩
        refine ⟨c, ?_⟩
        rw [upd_ne _ _ (by rintro rfl; rw [hv] at hc; simp at hc)]; exact hc
      · rintro ⟨c, hc⟩
        refine ⟨c, ?_⟩
        by_cases hci : c = i
        · subst hci; simp at hc; exact absurd hc.1 ho
        · rwa [upd_ne _ _ hci] at hc
    · simp only [hw, true_iff]; exact ⟨i, by simp⟩
  · rcases hr with ⟨ho, hr⟩ | ⟨rfl, rfl, hr⟩
    · rw [hr, h.rdone]
      constructor
      · rintro ⟨c, hc⟩
        refine ⟨c, ?_⟩
        rw [upd_ne _ _ (by rintro rfl; rw [hv] at hc; simp at hc)]; exact hc
      · rintro ⟨c, hc⟩
        refine ⟨c, ?_⟩
        by_cases hci : c = i
        · subst hci; simp at hc; exact absurd hc.1 ho
        · rwa [upd_ne _ _ hci] at hc
    · simp only [hr, true_iff]; exact ⟨i, by simp⟩
  · intro c r hc
    by_cases hci : c = i
    · subst hci
      simp only [upd_same, Option.some.injEq, Prod.mk.injEq] at hc
      rcases hw with ⟨ho, _⟩ | ⟨_, hx, _⟩
      · exact absurd hc.1 ho
      · rw [hx] at hc; simpa using hc.2.symm
    · rw [upd_ne _ _ hci] at hc; exact h.cancelW c r hc
  · intro c r hc
    by_cases hci : c = i
    · subst hci
      simp only [upd_same, Option.some.injEq, Prod.mk.injEq] at hc
      rcases hr with ⟨ho, _⟩ | ⟨_, hx, _⟩
      · exact absurd hc.1 ho
      · rw [hx] at hc; simpa using hc.2.symm
    · rw [upd_ne _ _ hci] at hc; exact h.cancelR c r hc
  · intro j r hj
    obtain ⟨op', ho⟩ := h.rets j r hj
    refine ⟨op', ?_⟩
    rw [upd_ne _ _ (by rintro rfl; rw [hv] at ho; simp at ho)]; exact ho
  · intro c j y u hc hj hb
    have hci : c ≠ i := by
      rintro rfl
      obtain ⟨H₁, H₂, r, op', rfl, h1, _⟩ := hb
      obtain ⟨op'', ho⟩ := h.rets c r (List.mem_append_left _ h1)
      rw [hv] at ho; simp at ho
    rw [upd_ne _ _ hci] at hc
    by_cases hji : j = i
    · subst hji
      simp only [upd_same, Option.some.injEq, Prod.mk.injEq] at hj
      obtain ⟨rfl, rfl⟩ := hj
      rcases h.lateW c j (.inl s) u hc hv hb with h' | h'
      · simp only [Sum.inl.injEq] at h'
        exact Or.inr (lw u rfl h' (h.wdone.mpr ⟨c, hc⟩))
      · simp at h'
    · rw [upd_ne _ _ hji] at hj
      exact h.lateW c j y u hc hj hb
  · intro c j y hc hj hb
    have hci : c ≠ i := by
      rintro rfl
      obtain ⟨H₁, H₂, r, op', rfl, h1, _⟩ := hb
      obtain ⟨op'', ho⟩ := h.rets c r (List.mem_append_left _ h1)
      rw [hv] at ho; simp at ho
    rw [upd_ne _ _ hci] at hc
    by_cases hji : j = i
    · subst hji
      simp only [upd_same, Option.some.injEq, Prod.mk.injEq] at hj
      obtain ⟨rfl, rfl⟩ := hj
      rcases h.lateR c j (.inl s) hc hv hb with h' | h'
      · simp only [Sum.inl.injEq] at h'
        exact Or.inr (lr rfl h' (h.rdone.mpr ⟨c, hc⟩))
      · simp at h'
    · rw [upd_ne _ _ hji] at hj
      exact h.lateR c j y hc hj hb
  · intro j op' hj
    by_cases hji : j = i
    · subst hji; simp
    · rw [upd_ne _ _ hji]; exact h.invs j op' hj

/-- Steps that only move call `i`. -/
theorem Inv.local {g : G α} {v : View (Op α) (Res α) Pt} {H : List (Ev (Op α) (Res α))} (h : Inv g v H) {i : Nat} {op : Op α}
    {s : Pt} {x : Pt ⊕ Res α} (hv : v i = some (op, .inl s)) (self : CallOK g i (some (op, x)))
    (hw : op ≠ .cancelW) (hr : op ≠ .cancelR)
    (lw : ∀ u, op = .write u → s = .check → g.wdone = true → x = .inr (.ok false))
    (lr : op = .read → s = .check → g.rdone = true → x = .inr (.val none false)) :
    Inv g (upd v i (some (op, x))) H :=
  h.step_of hv h.cons h.sendsNd h.recvsNd h.qNd self (fun j _ => h.calls j) (Or.inl ⟨hw, rfl⟩) (Or.inl ⟨hr, rfl⟩) lw lr

/-- The send steps. -/
theorem Inv.send {g g' : G α} {v : View (Op α) (Res α) Pt} {H : List (Ev (Op α) (Res α))} (h : Inv g v H) {i : Nat} {op : Op α}
    {x : Pt ⊕ Res α} (u : α) (r : Res α) (hop : (op = .write u ∧ r = .ok true) ∨ (op = .send u ∧ r = .unit))
    (hv : v i = some (op, .inl .go)) (hs : sendStep g i u r = some (g', x)) : Inv g' (upd v i (some (op, x))) H := by
  have hcall : SendOK g i u r (.inl .go) ∧ NoRecv g i := by
    have := h.calls i; rw [hv] at this
    rcases hop with ⟨rfl, rfl⟩ | ⟨rfl, rfl⟩ <;> exact this
  have hself : ∀ g' x, SendOK g' i u r x → NoRecv g' i → CallOK g' i (some (op, x)) := by
    intro g' x h1 h2
    rcases hop with ⟨rfl, rfl⟩ | ⟨rfl, rfl⟩ <;> exact ⟨h1, h2⟩
  have hcw : op ≠ .cancelW := by rcases hop with ⟨rfl, _⟩ | ⟨rfl, _⟩ <;> simp
  have hcr : op ≠ .cancelR := by rcases hop with ⟨rfl, _⟩ | ⟨rfl, _⟩ <;> simp
  have hrne : ∀ (g' : G α), (i, u) ∈ g'.sends → i ∉ g'.ch.sendq.map (·.1) → SendOK g' i u r (.inr r) := by
    intro g' a b
    rcases hop with ⟨_, rfl⟩ | ⟨_, rfl⟩ <;> exact ⟨rfl, a, b⟩
  obtain ⟨⟨hn1, hn2⟩, hn3⟩ := hcall
  unfold sendStep BChan.send at hs
  cases hcl : g.ch.closed with
  | true =>
    simp only [hcl, if_true, Option.some.injEq, Prod.mk.injEq] at hs
    obtain ⟨rfl, rfl⟩ := hs
    exact h.local hv (hself _ _ ⟨hn1, hcl⟩ hn3) hcw hcr (by simp) (by simp)
  | false =>
    simp only [hcl, Bool.false_eq_true, if_false] at hs
    by_cases hlt : g.ch.buf.length < g.ch.cap
    · simp only [hlt, if_true, Option.some.injEq, Prod.mk.injEq] at hs
      obtain ⟨rfl, rfl⟩ := hs
      refine h.step_of hv ?_ ?_ h.recvsNd h.qNd ?_ ?_ (Or.inl ⟨hcw, rfl⟩) (Or.inl ⟨hcr, rfl⟩) (by simp) (by simp)
      · simp [h.cons]
      · simp only [List.map_append, List.map_cons, List.map_nil]
        rw [List.nodup_append]
        exact ⟨h.sendsNd, by simp, by rintro a ha b hb rfl; simp at hb; subst hb; exact hn1 ha⟩
      · exact hself _ _ (hrne _ (by simp) hn2) hn3
      · intro j hj
        refine (h.calls j).frame ?_ ?_ Iff.rfl (fun _ => id) Iff.rfl (fun _ => id) id id (by simp [hcl]) ?_
        · simp [hj]
        · intro w hw; exact List.mem_append_left _ hw
        · intro hc; rw [hcl] at hc; simp at hc
    · simp only [hlt, if_false, Option.some.injEq, Prod.mk.injEq] at hs
      obtain ⟨rfl, rfl⟩ := hs
      refine h.step_of hv h.cons h.sendsNd h.recvsNd ?_ ?_ ?_ (Or.inl ⟨hcw, rfl⟩) (Or.inl ⟨hcr, rfl⟩) (by simp) (by simp)
      · simp only [List.map_append, List.map_cons, List.map_nil]
        rw [List.nodup_append]
        exact ⟨h.qNd, by simp, by rintro a ha b hb rfl; simp at hb; subst hb; exact hn2 ha⟩
      · exact hself _ _ (Or.inl ⟨by simp, hn1⟩) hn3
      · intro j hj
        refine (h.calls j).frame Iff.rfl (fun _ => id) ?_ ?_ Iff.rfl (fun _ => id) id id (by simp [hcl]) (fun _ => id)
        · simp [hj]
        · intro w hw; exact List.mem_append_left _ hw

theorem Inv.wait {g g' : G α} {v : View (Op α) (Res α) Pt} {H : List (Ev (Op α) (Res α))} (h : Inv g v H) {i : Nat} {op : Op α}
    {x : Pt ⊕ Res α} (u : α) (r : Res α) (hop : (op = .write u ∧ r = .ok true) ∨ (op = .send u ∧ r = .unit))
    (hv : v i = some (op, .inl .wait)) (hs : waitStep g i r = some (g', x)) : Inv g' (upd v i (some (op, x))) H := by
  have hcall : SendOK g i u r (.inl .wait) ∧ NoRecv g i := by
    have := h.calls i; rw [hv] at this
    rcases hop with ⟨rfl, rfl⟩ | ⟨rfl, rfl⟩ <;> exact this
  have hself : ∀ g' x, SendOK g' i u r x → NoRecv g' i → CallOK g' i (some (op, x)) := by
    intro g' x h1 h2
    rcases hop with ⟨rfl, rfl⟩ | ⟨rfl, rfl⟩ <;> exact ⟨h1, h2⟩
  have hcw : op ≠ .cancelW := by rcases hop with ⟨rfl, _⟩ | ⟨rfl, _⟩ <;> simp
  have hcr : op ≠ .cancelR := by rcases hop with ⟨rfl, _⟩ | ⟨rfl, _⟩ <;> simp
  have hrne : (i, u) ∈ g.sends → i ∉ g.ch.sendq.map (·.1) → SendOK g i u r (.inr r) := by
    intro a b
    rcases hop with ⟨_, rfl⟩ | ⟨_, rfl⟩ <;> exact ⟨rfl, a, b⟩
  obtain ⟨hw, hn3⟩ := hcall
  unfold waitStep BChan.wait at hs
  by_cases hq : i ∈ g.ch.sendq.map (·.1)
  · cases hcl : g.ch.closed with
    | false => simp only [hq, hcl, if_true, Bool.false_eq_true, if_false] at hs; simp at hs
    | true =>
      simp only [hq, hcl, if_true, Option.some.injEq, Prod.mk.injEq] at hs
      obtain ⟨rfl, rfl⟩ := hs
      rcases hw with ⟨_, hw⟩ | ⟨hw, _⟩
      · exact h.local hv (hself _ _ ⟨hw, hcl⟩ hn3) hcw hcr (by simp) (by simp)
      · exact absurd hq hw
  · simp only [hq, if_false, Option.some.injEq, Prod.mk.injEq] at hs
    obtain ⟨rfl, rfl⟩ := hs
    rcases hw with ⟨hw, _⟩ | ⟨_, hw⟩
    · exact absurd (List.mem_map.mpr ⟨_, hw, rfl⟩) hq
    · exact h.local hv (hself _ _ (hrne hw hq) hn3) hcw hcr (by simp) (by simp)

/-- A waiting sender is released: its send completes. -/
theorem CallOK.release {g : G α} {j : Nat} {w : α} {q : List (Nat × α)} {x : Option (Op α × (Pt ⊕ Res α))} (g' : G α)
    (h : CallOK g j x) (hcl : g.ch.closed = false) (hq : g.ch.sendq = (j, w) :: q) (hnd : (g.ch.sendq.map (·.1)).Nodup)
    (hs : g'.sends = g.sends ++ [(j, w)]) (hsq : g'.ch.sendq = q) (hrec : j ∈ g'.recvs.map (·.1) ↔ j ∈ g.recvs.map (·.1)) :
    CallOK g' j x ∧ j ∉ g.sends.map (·.1) := by
  rw [hq] at hnd
  simp only [List.map_cons, List.nodup_cons] at hnd
  have hin : j ∈ g.ch.sendq.map (·.1) := by rw [hq]; simp
  have key : ∀ u r y, SendOK g j u r y → SendOK g' j u r y ∧ j ∉ g.sends.map (·.1) := by
    intro u r y hy
    rcases y with p | r'
    · cases p
      · exact absurd hin hy.2
      · exact absurd hin hy.2
      · rcases hy with ⟨a, b⟩ | ⟨a, b⟩
        · refine ⟨Or.inr ⟨by rw [hsq]; exact hnd.1, ?_⟩, b⟩
          rw [hq, List.mem_cons] at a
          rcases a with a | a
          · rw [hs, a]; simp
          · exact absurd (List.mem_map.mpr ⟨_, a, rfl⟩) hnd.1
        · exact absurd hin a
    · cases r' with
      | ok b => cases b
                · exact absurd hin hy.2.1
                · exact absurd hin hy.2.2
      | val _ _ => exact absurd hin hy.2.2
      | unit => exact absurd hin hy.2.2
      | panic => have := hy.2; rw [hcl] at this; simp at this
  have hnr : NoRecv g j → NoRecv g' j := by unfold NoRecv; rw [hrec]; exact id
  match x, h with
  | none, h => exact absurd hin h.1.2
  | some (.write u, x), h => exact ⟨⟨(key _ _ _ h.1).1, hnr h.2⟩, (key _ _ _ h.1).2⟩
  | some (.send u, x), h => exact ⟨⟨(key _ _ _ h.1).1, hnr h.2⟩, (key _ _ _ h.1).2⟩
  | some (.read, x), h => exact absurd hin h.2.2
  | some (.recv, x), h => exact absurd hin h.2.2
  | some (.close, x), h => exact absurd hin h.1.2
  | some (.cancelW, x), h => exact absurd hin h.1.2
  | some (.cancelR, x), h => exact absurd hin h.1.2

theorem Inv.recv {g g' : G α} {v : View (Op α) (Res α) Pt} {H : List (Ev (Op α) (Res α))} (h : Inv g v H) {i : Nat} {op : Op α}
    {x : Pt ⊕ Res α} (hop : op = .read ∨ op = .recv)
    (hv : v i = some (op, .inl .go)) (hs : recvStep g i = some (g', x)) : Inv g' (upd v i (some (op, x))) H := by
  have hcall : NoRecv g i ∧ NoSend g i := by
    have := h.calls i; rw [hv] at this
    rcases hop with rfl | rfl <;> exact this
  have hself : ∀ g' x, (∀ rd, RecvOK g' i rd x) → NoSend g' i → CallOK g' i (some (op, x)) := by
    intro g' x h1 h2
    rcases hop with rfl | rfl <;> exact ⟨h1 _, h2⟩
  have hcw : op ≠ .cancelW := by rcases hop with rfl | rfl <;> simp
  have hcr : op ≠ .cancelR := by rcases hop with rfl | rfl <;> simp
  obtain ⟨hn3, hn1, hn2⟩ := hcall
  -- a receive that takes `y` and releases nobody
  have plain : ∀ (y : α) (ch : BChan α), g.ch.buf = y :: ch.buf → ch.sendq = g.ch.sendq → ch.closed = g.ch.closed → 
      Inv { g with ch := ch, sends := g.sends ++ (none : Option (Nat × α)).toList, recvs := g.recvs ++ [(i, y)] } (upd v i (some (op, .inr (.val (some y) true)))) H := by
    intro y ch hb hq hcl
    refine h.step_of hv ?_ ?_ ?_ ?_ ?_ ?_ (Or.inl ⟨hcw, rfl⟩) (Or.inl ⟨hcr, rfl⟩) (by simp) (by simp)
    · simp [h.cons, hb]
    · simpa using h.sendsNd
    · simp only [List.map_append, List.map_cons, List.map_nil]
      rw [List.nodup_append]
      exact ⟨h.recvsNd, by simp, by rintro a ha b hb rfl; simp at hb; subst hb; exact hn3 ha⟩
    · simp only [hq]; exact h.qNd
    · refine hself _ _ (fun rd => by simp [RecvOK]) ⟨by simpa using hn1, by simp only [hq]; exact hn2⟩
    · intro j hj
      refine (h.calls j).frame (by simp) (by simp) (by simp [hq]) (by simp [hq]) (by simp [hj]) (fun w hw => List.mem_append_left _ hw) id id (by simp [hcl]) ?_
      intro _ h'; rw [hb] at h'; simp at h'
  -- a receive that takes `y` and releases the first waiting sender
  have rel : ∀ (y : α) (ch : BChan α) (e : Nat × α) (q : List (Nat × α)), g.ch.closed = false → g.ch.sendq = e :: q →
      g.ch.buf ++ [e.2] = y :: ch.buf → ch.sendq = q →
      Inv { g with ch := ch, sends := g.sends ++ (some e).toList, recvs := g.recvs ++ [(i, y)] } (upd v i (some (op, .inr (.val (some y) true)))) H := by
    rintro y ch ⟨k, w⟩ q hcl hq hb hsq
    have hki : k ≠ i := by rintro rfl; exact hn2 (by rw [hq]; simp)
    have hrel := (h.calls k).release { g with ch := ch, sends := g.sends ++ (some (k, w)).toList, recvs := g.recvs ++ [(i, y)] } hcl hq h.qNd rfl hsq
      (by simp [hki])
    have hnd := h.qNd
    rw [hq, List.map_cons, List.nodup_cons] at hnd
    refine h.step_of hv ?_ ?_ ?_ ?_ ?_ ?_ (Or.inl ⟨hcw, rfl⟩) (Or.inl ⟨hcr, rfl⟩) (by simp) (by simp)
    · simp only [Option.toList_some, List.map_append, List.map_cons, List.map_nil, h.cons, List.append_assoc, hb, List.cons_append, List.nil_append]
    · simp only [Option.toList_some, List.map_append, List.map_cons, List.map_nil]
      rw [List.nodup_append]
      exact ⟨h.sendsNd, by simp, by rintro a ha b hb rfl; simp at hb; subst hb; exact hrel.2 ha⟩
    · simp only [List.map_append, List.map_cons, List.map_nil]
      rw [List.nodup_append]
      exact ⟨h.recvsNd, by simp, by rintro a ha b hb rfl; simp at hb; subst hb; exact hn3 ha⟩
    · simp only [hsq]; exact hnd.2
    · refine hself _ _ (fun rd => by simp [RecvOK]) ⟨?_, ?_⟩
      · simpa [Ne.symm hki] using hn1
      · simp only [hsq]; intro h'; exact hn2 (by rw [hq]; exact List.mem_cons_of_mem _ h')
    · intro j hj
      by_cases hjk : j = k
      · subst hjk; exact hrel.1
      · refine (h.calls j).frame (by simp [hjk]) (fun u hu => List.mem_append_left _ hu) (by simp [hsq, hq, hjk]) (by simp [hsq, hq, hjk]) (by simp [hj])
          (fun w hw => List.mem_append_left _ hw) id id (by simp [hcl]) ?_
        intro h'; rw [hcl] at h'; simp at h'
  unfold recvStep BChan.recv at hs
  cases hb : g.ch.buf with
  | cons y ys =>
    cases hcl : g.ch.closed with
    | true =>
      simp only [hb, hcl, if_true, Option.some.injEq, Prod.mk.injEq] at hs
      obtain ⟨rfl, rfl⟩ := hs
      exact plain y _ hb rfl hcl.symm
    | false =>
      simp only [hb, hcl, Bool.false_eq_true, if_false] at hs
      cases hq : g.ch.sendq with
      | nil =>
        simp only [hq, Option.some.injEq, Prod.mk.injEq] at hs
        obtain ⟨rfl, rfl⟩ := hs
        exact plain y _ hb hq.symm hcl.symm
      | cons e q =>
        simp only [hq, Option.some.injEq, Prod.mk.injEq] at hs
        obtain ⟨rfl, rfl⟩ := hs
        exact rel y _ e q hcl hq (by rw [hb]; rfl) rfl
  | nil =>
    cases hcl : g.ch.closed with
    | true =>
      simp only [hb, hcl, if_true, Option.some.injEq, Prod.mk.injEq] at hs
      obtain ⟨rfl, rfl⟩ := hs
      exact h.local hv (hself _ _ (fun rd => ⟨hn3, hcl, hb⟩) ⟨hn1, hn2⟩) hcw hcr (by simp) (by simp)
    | false =>
      simp only [hb, hcl, Bool.false_eq_true, if_false] at hs
      cases hq : g.ch.sendq with
      | nil => simp [hq] at hs
      | cons e q =>
        simp only [hq, Option.some.injEq, Prod.mk.injEq] at hs
        obtain ⟨rfl, rfl⟩ := hs
        exact rel e.2 _ e q hcl hq (by rw [hb]; rfl) rfl

theorem inv_exec (n : Nat) {m : Conf (G α) (Op α) (Res α) Pt} {H : List (Ev (Op α) (Res α))} (h : (prog n).mach.Exec m H) :
    Inv m.g m.view H := by
  refine (prog n).induct Inv ?_ ?_ ?_ ?_ h
  · constructor <;> simp [prog, BChan.make, CallOK, NoSend, NoRecv]
  · -- a new call
    intro g v H i op h hv
    have hnone : NoSend g i ∧ NoRecv g i := by have := h.calls i; rw [hv] at this; exact this
    have hbef : ∀ a b, Before (H ++ [Ev.inv i op]) a b → v b ≠ none → Before H a b := by
      intro a b hb hne
      rcases before_append hb with h' | ⟨op', r, he, _⟩
      · exact h'
      · simp only [Ev.inv.injEq] at he; rw [← he.1] at hne; exact absurd hv hne
    refine ⟨h.cons, h.sendsNd, h.recvsNd, h.qNd, ?_, ?_, ?_, ?_, ?_, ?_, ?_, ?_, ?_⟩
    · intro j
      by_cases hj : j = i
      · subst hj
        simp only [upd_same]
        cases op
        · exact ⟨hnone.1, hnone.2⟩
        · exact ⟨hnone.2, hnone.1⟩
        · exact ⟨hnone.1, hnone.2⟩
        · exact ⟨hnone.2, hnone.1⟩
        · exact hnone
        · exact hnone
        · exact hnone
      · rw [upd_ne _ _ hj]; exact h.calls j
    · rw [h.wdone]
      constructor
      · rintro ⟨c, hc⟩; exact ⟨c, by rw [upd_ne _ _ (by rintro rfl; rw [hv] at hc; simp at hc)]; exact hc⟩
      · rintro ⟨c, hc⟩
        by_cases hci : c = i
        · subst hci; simp at hc
        · exact ⟨c, by rwa [upd_ne _ _ hci] at hc⟩
    · rw [h.rdone]
      constructor
      · rintro ⟨c, hc⟩; exact ⟨c, by rw [upd_ne _ _ (by rintro rfl; rw [hv] at hc; simp at hc)]; exact hc⟩
      · rintro ⟨c, hc⟩
        by_cases hci : c = i
        · subst hci; simp at hc
        · exact ⟨c, by rwa [upd_ne _ _ hci] at hc⟩
    · intro c r hc
      by_cases hci : c = i
      · subst hci; simp at hc
      · rw [upd_ne _ _ hci] at hc; exact h.cancelW c r hc
    · intro c r hc
      by_cases hci : c = i
      · subst hci; simp at hc
      · rw [upd_ne _ _ hci] at hc; exact h.cancelR c r hc
    · intro j r hj
      simp only [List.mem_append, List.mem_singleton, reduceCtorEq, or_false] at hj
      obtain ⟨op', ho⟩ := h.rets j r hj
      exact ⟨op', by rw [upd_ne _ _ (by rintro rfl; rw [hv] at ho; simp at ho)]; exact ho⟩
    · intro c j y u hc hj hb
      by_cases hji : j = i
      · subst hji
        simp only [upd_same, Option.some.injEq, Prod.mk.injEq] at hj
        obtain ⟨rfl, rfl⟩ := hj
        exact Or.inl rfl
      · rw [upd_ne _ _ hji] at hj
        have hci : c ≠ i := by rintro rfl; simp at hc
        rw [upd_ne _ _ hci] at hc
        exact h.lateW c j y u hc hj (hbef c j hb (by rw [hj]; simp))
    · intro c j y hc hj hb
      by_cases hji : j = i
      · subst hji
        simp only [upd_same, Option.some.injEq, Prod.mk.injEq] at hj
        obtain ⟨rfl, rfl⟩ := hj
        exact Or.inl rfl
      · rw [upd_ne _ _ hji] at hj
        have hci : c ≠ i := by rintro rfl; simp at hc
        rw [upd_ne _ _ hci] at hc
        exact h.lateR c j y hc hj (hbef c j hb (by rw [hj]; simp))
    · intro j op' hj
      by_cases hji : j = i
      · subst hji; simp
      · rw [upd_ne _ _ hji]
        simp only [List.mem_append, List.mem_singleton, Ev.inv.injEq] at hj
        rcases hj with hj | ⟨hj, _⟩
        · exact h.invs j op' hj
        · exact absurd hj hji
  · -- a step
    intro g v H i op s c g' x h hv hs
    have hcall := h.calls i
    rw [hv] at hcall
    simp only [prog] at hs
    unfold step at hs
    cases op with
    | write u =>
      cases s with
      | check =>
        simp only [Option.some.injEq, Prod.mk.injEq] at hs
        obtain ⟨rfl, rfl⟩ := hs
        obtain ⟨⟨h1, h2⟩, h3⟩ := hcall
        by_cases hw : g.wdone = true
        · simp only [hw, if_true]
          exact h.local hv ⟨⟨h1, h2, hw, rfl⟩, h3⟩ (by simp) (by simp) (by simp) (by simp)
        · simp only [hw]
          exact h.local hv ⟨⟨h1, h2⟩, h3⟩ (by simp) (by simp) (fun _ _ _ h' => absurd h' hw) (by simp)
      | go => exact h.send u _ (Or.inl ⟨rfl, rfl⟩) hv hs
      | wait => exact h.wait u _ (Or.inl ⟨rfl, rfl⟩) hv hs
    | send u =>
      cases s with
      | check => simp at hs
      | go => exact h.send u _ (Or.inr ⟨rfl, rfl⟩) hv hs
      | wait => exact h.wait u _ (Or.inr ⟨rfl, rfl⟩) hv hs
    | read =>
      cases s with
      | check =>
        simp only [Option.some.injEq, Prod.mk.injEq] at hs
        obtain ⟨rfl, rfl⟩ := hs
        obtain ⟨h1, h2⟩ := hcall
        by_cases hw : g.rdone = true
        · simp only [hw, if_true]
          exact h.local hv ⟨⟨h1, hw, rfl⟩, h2⟩ (by simp) (by simp) (by simp) (by simp)
        · simp only [hw]
          exact h.local hv ⟨h1, h2⟩ (by simp) (by simp) (by simp) (fun _ _ h' => absurd h' hw)
      | go => exact h.recv (Or.inl rfl) hv hs
      | wait => simp at hs
    | recv =>
      cases s with
      | check => simp at hs
      | go => exact h.recv (Or.inr rfl) hv hs
      | wait => simp at hs
    | close =>
      cases s with
      | check => simp at hs
      | wait => simp at hs
      | go =>
        simp only [BChan.close] at hs
        cases hcl : g.ch.closed with
        | true =>
          simp only [hcl, if_true, Option.some.injEq, Prod.mk.injEq] at hs
          obtain ⟨rfl, rfl⟩ := hs
          exact h.local hv hcall (by simp) (by simp) (by simp) (by simp)
        | false =>
          simp only [hcl, Bool.false_eq_true, if_false, Option.some.injEq, Prod.mk.injEq] at hs
          obtain ⟨rfl, rfl⟩ := hs
          refine h.step_of hv h.cons h.sendsNd h.recvsNd h.qNd hcall (fun j _ => ?_) (Or.inl ⟨by simp, rfl⟩) (Or.inl ⟨by simp, rfl⟩) (by simp) (by simp)
          exact (h.calls j).frame Iff.rfl (fun _ => id) Iff.rfl (fun _ => id) Iff.rfl (fun _ => id) id id (by simp) (fun _ => id)
    | cancelW =>
      cases s with
      | check => simp at hs
      | wait => simp at hs
      | go =>
        simp only [Option.some.injEq, Prod.mk.injEq] at hs
        obtain ⟨rfl, rfl⟩ := hs
        refine h.step_of hv h.cons h.sendsNd h.recvsNd h.qNd hcall (fun j _ => ?_) (Or.inr ⟨rfl, rfl, rfl⟩) (Or.inl ⟨by simp, rfl⟩) (by simp) (by simp)
        exact (h.calls j).frame Iff.rfl (fun _ => id) Iff.rfl (fun _ => id) Iff.rfl (fun _ => id) (by simp) id id (fun _ => id)
    | cancelR =>
      cases s with
      | check => simp at hs
      | wait => simp at hs
      | go =>
        simp only [Option.some.injEq, Prod.mk.injEq] at hs
        obtain ⟨rfl, rfl⟩ := hs
        refine h.step_of hv h.cons h.sendsNd h.recvsNd h.qNd hcall (fun j _ => ?_) (Or.inl ⟨by simp, rfl⟩) (Or.inr ⟨rfl, rfl, rfl⟩) (by simp) (by simp)
        exact (h.calls j).frame Iff.rfl (fun _ => id) Iff.rfl (fun _ => id) Iff.rfl (fun _ => id) id (by simp) id (fun _ => id)
  · -- a return
    intro g v H i op r h hv
    have hbef : ∀ a b, Before (H ++ [Ev.ret i r]) a b → Before H a b := by
      intro a b hb
      rcases before_append hb with h' | ⟨op', r, he, _⟩
      · exact h'
      · simp at he
    refine ⟨h.cons, h.sendsNd, h.recvsNd, h.qNd, h.calls, h.wdone, h.rdone, h.cancelW, h.cancelR, ?_, ?_, ?_, ?_⟩
    · intro j r' hj
      simp only [List.mem_append, List.mem_singleton, Ev.ret.injEq] at hj
      rcases hj with hj | ⟨rfl, rfl⟩
      · exact h.rets j r' hj
      · exact ⟨op, hv⟩
    · intro c j y u hc hj hb; exact h.lateW c j y u hc hj (hbef c j hb)
    · intro c j y hc hj hb; exact h.lateR c j y hc hj (hbef c j hb)
    · intro j op' hj
      simp only [List.mem_append, List.mem_singleton, reduceCtorEq, or_false] at hj
      exact h.invs j op' hj

/-- The values sent by call `i`. -/
def sentBy (g : G α) (i : Nat) : List α := (g.sends.filter (fun e => e.1 == i)).map (·.2)

/-- The values received by call `i`. -/
def receivedBy (g : G α) (i : Nat) : List α := (g.recvs.filter (fun e => e.1 == i)).map (·.2)

theorem filter_nil {l : List (Nat × α)} {i : Nat} (h : i ∉ l.map (·.1)) : (l.filter (fun e => e.1 == i)).map (·.2) = [] := by
  rw [List.map_eq_nil_iff, List.filter_eq_nil_iff]
  intro e he
  simp only [beq_iff_eq]
  rintro rfl
  exact h (List.mem_map.mpr ⟨e, he, rfl⟩)

theorem filter_one {l : List (Nat × α)} {i : Nat} {u : α} (hnd : (l.map (·.1)).Nodup) (h : (i, u) ∈ l) :
    (l.filter (fun e => e.1 == i)).map (·.2) = [u] := by
  induction l with
  | nil => simp at h
  | cons e l ih =>
    simp only [List.map_cons, List.nodup_cons] at hnd
    rw [List.mem_cons] at h
    rcases h with rfl | h
    · rw [List.filter_cons_of_pos (by simp), List.map_cons, filter_nil hnd.1]
    · have : e.1 ≠ i := by rintro rfl; exact hnd.1 (List.mem_map.mpr ⟨_, h, rfl⟩)
      rw [List.filter_cons_of_neg (by simpa using this)]
      exact ih hnd.2 h

/-- Two writers on an unbuffered channel, one refused because the context is done, and two readers, one of them refused. -/
def demoH : List (Ev (Op Nat) (Res Nat)) :=
  [.inv 1 (.write 7), .inv 3 .read, .inv 9 .cancelW, .ret 9 .unit, .ret 3 (.val (some 7) true), .inv 2 (.write 8), .ret 1 (.ok true), .ret 2 (.ok false),
   .inv 10 .cancelR, .ret 10 .unit, .inv 4 .read, .ret 4 (.val none false)]

theorem demo : ∃ m, (prog (α := Nat) 0).mach.Exec m demoH :=
  Mach.exists_exec _ [.inv 1 (.write 7), .run 1, .inv 3 .read, .run 3, .run 1, .inv 9 .cancelW, .run 9, .run 9, .run 3, .run 3, .inv 2 (.write 8), .run 2,
    .run 1, .run 1, .run 2, .inv 10 .cancelR, .run 10, .run 10, .inv 4 .read, .run 4, .run 4] _ rfl

/-- C11: what a `Write(v)` that has returned has done: true – exactly one send of `v`; false – no send, and the
context was done; a panic – no send, and the channel was closed. There is no other result. -/
theorem C11_write (n : Nat) {m : Conf (G α) (Op α) (Res α) Pt} {H : List (Ev (Op α) (Res α))} (h : (prog n).mach.Exec m H)
    (i : Nat) (u : α) (r : Res α) (hi : Ev.inv i (.write u) ∈ H) (hr : Ev.ret i r ∈ H) :
    (r = .ok true ∧ sentBy m.g i = [u]) ∨
    (r = .ok false ∧ sentBy m.g i = [] ∧ ∃ c, Ev.inv c .cancelW ∈ H) ∨
    (r = .panic ∧ sentBy m.g i = [] ∧ m.g.ch.closed = true) := by
  have hv := (prog n).ret_view h hi hr
  have hI := inv_exec n h
  have hc := hI.calls i
  rw [hv] at hc
  obtain ⟨hc, _⟩ := hc
  cases r with
  | ok b =>
    cases b with
    | true => exact Or.inl ⟨rfl, filter_one hI.sendsNd hc.2.1⟩
    | false =>
      refine Or.inr (Or.inl ⟨rfl, filter_nil hc.1, ?_⟩)
      obtain ⟨c, hc'⟩ := hI.wdone.mp hc.2.2.1
      exact ⟨c, (((prog n).hist h).1 c .cancelW).mpr ⟨_, hc'⟩⟩
  | val _ _ => have := hc.1; simp at this
  | unit => have := hc.1; simp at this
  | panic => exact Or.inr (Or.inr ⟨rfl, filter_nil hc.1, hc.2⟩)

example : ∃ m, (prog (α := Nat) 0).mach.Exec m demoH ∧ sentBy m.g 1 = [7] ∧ sentBy m.g 2 = [] := by
  obtain ⟨m, h⟩ := demo
  refine ⟨m, h, ?_, ?_⟩
  · simpa using C11_write 0 h 1 7 (.ok true) (by simp [demoH]) (by simp [demoH])
  · rcases C11_write 0 h 2 8 (.ok false) (by simp [demoH]) (by simp [demoH]) with ⟨h', _⟩ | ⟨_, h', _⟩ | ⟨h', _⟩
    · simp at h'
    · exact h'
    · simp at h' 

/-- C11: a `Write` that is called after the cancellation of its context returns false. -/
theorem C11_late_write (n : Nat) {m : Conf (G α) (Op α) (Res α) Pt} {H : List (Ev (Op α) (Res α))} (h : (prog n).mach.Exec m H)
    (c i : Nat) (u : α) (r : Res α) (hc : Ev.inv c .cancelW ∈ H) (hi : Ev.inv i (.write u) ∈ H) (hb : Before H c i)
    (hr : Ev.ret i r ∈ H) : r = .ok false := by
  have hv := (prog n).ret_view h hi hr
  have hI := inv_exec n h
  obtain ⟨r', hr'⟩ := (before_mem hb).1
  have hvc := (prog n).ret_view h hc hr'
  have := hI.cancelW c r' hvc
  subst this
  rcases hI.lateW c i _ u hvc hv hb with h' | h'
  · simp at h'
  · simpa using h'

example (r : Res Nat) (hr : Ev.ret 2 r ∈ demoH) : r = .ok false :=
  have ⟨_, h⟩ := demo
  C11_late_write 0 h 9 2 8 r (by simp [demoH]) (by simp [demoH])
    ⟨demoH.take 4, demoH.drop 4, .unit, .write 8, by simp, by simp [demoH], by simp [demoH]⟩ hr

/-- C11: a `Write` whose context is never cancelled never returns false. -/
theorem C11_never_false (n : Nat) {m : Conf (G α) (Op α) (Res α) Pt} {H : List (Ev (Op α) (Res α))} (h : (prog n).mach.Exec m H)
    (hno : ∀ c, Ev.inv c .cancelW ∉ H) (i : Nat) (u : α) (hi : Ev.inv i (.write u) ∈ H) : Ev.ret i (.ok false) ∉ H := by
  intro hr
  rcases C11_write n h i u _ hi hr with ⟨h', _⟩ | ⟨_, _, c, hc⟩ | ⟨h', _⟩
  · simp at h'
  · exact hno c hc
  · simp at h'

example : ∃ m, (prog (α := Nat) 1).mach.Exec m [.inv 1 (.write 7), .ret 1 (.ok true)] ∧
    Ev.ret 1 (.ok false) ∉ ([.inv 1 (.write 7), .ret 1 (.ok true)] : List (Ev (Op Nat) (Res Nat))) := by
  obtain ⟨m, h⟩ := Mach.exists_exec (prog (α := Nat) 1).mach [.inv 1 (.write 7), .run 1, .run 1, .run 1] [.inv 1 (.write 7), .ret 1 (.ok true)] rfl
  exact ⟨m, h, C11_never_false 1 h (by simp) 1 7 (by simp)⟩

/-- What was sent is what was received, in the same order, followed by what is still buffered: nothing is lost,
duplicated or invented, for every capacity. -/
theorem C11_C12_conservation (n : Nat) {m : Conf (G α) (Op α) (Res α) Pt} {H : List (Ev (Op α) (Res α))} (h : (prog n).mach.Exec m H) :
    m.g.sends.map (·.2) = m.g.recvs.map (·.2) ++ m.g.ch.buf :=
  (inv_exec n h).cons

example : ∃ m, (prog (α := Nat) 0).mach.Exec m demoH ∧ m.g.sends.map (·.2) = m.g.recvs.map (·.2) ++ m.g.ch.buf :=
  have ⟨m, h⟩ := demo; ⟨m, h, C11_C12_conservation 0 h⟩

/-- C12: what a `Read` that has returned has done: `(x, true)` – it received exactly `x`; `(nil, true)` – it received
nothing, and the channel is closed and drained; `(nil, false)` – it received nothing and the context was done. -/
theorem C12_read (n : Nat) {m : Conf (G α) (Op α) (Res α) Pt} {H : List (Ev (Op α) (Res α))} (h : (prog n).mach.Exec m H)
    (i : Nat) (r : Res α) (hi : Ev.inv i .read ∈ H) (hr : Ev.ret i r ∈ H) :
    (∃ x, r = .val (some x) true ∧ receivedBy m.g i = [x]) ∨
    (r = .val none true ∧ receivedBy m.g i = [] ∧ m.g.ch.closed = true ∧ m.g.ch.buf = []) ∨
    (r = .val none false ∧ receivedBy m.g i = [] ∧ ∃ c, Ev.inv c .cancelR ∈ H) := by
  have hv := (prog n).ret_view h hi hr
  have hI := inv_exec n h
  have hc := hI.calls i
  rw [hv] at hc
  obtain ⟨hc, _⟩ := hc
  cases r with
  | ok b => exact hc.elim
  | unit => exact hc.elim
  | panic => exact hc.elim
  | val o b =>
    cases o with
    | some x =>
      cases b with
      | true => exact Or.inl ⟨x, rfl, filter_one hI.recvsNd hc⟩
      | false => exact hc.elim
    | none =>
      cases b with
      | true => exact Or.inr (Or.inl ⟨rfl, filter_nil hc.1, hc.2⟩)
      | false =>
        refine Or.inr (Or.inr ⟨rfl, filter_nil hc.1, ?_⟩)
        obtain ⟨c, hc'⟩ := hI.rdone.mp hc.2.1
        exact ⟨c, (((prog n).hist h).1 c .cancelR).mpr ⟨_, hc'⟩⟩

example : ∃ m, (prog (α := Nat) 0).mach.Exec m demoH ∧ receivedBy m.g 3 = [7] := by
  obtain ⟨m, h⟩ := demo
  exact ⟨m, h, by simpa using C12_read 0 h 3 (.val (some 7) true) (by simp [demoH]) (by simp [demoH])⟩

/-- C12: a `Read` that is called after the cancellation of its context returns false. -/
theorem C12_late_read (n : Nat) {m : Conf (G α) (Op α) (Res α) Pt} {H : List (Ev (Op α) (Res α))} (h : (prog n).mach.Exec m H)
    (c i : Nat) (r : Res α) (hc : Ev.inv c .cancelR ∈ H) (hi : Ev.inv i .read ∈ H) (hb : Before H c i)
    (hr : Ev.ret i r ∈ H) : r = .val none false := by
  have hv := (prog n).ret_view h hi hr
  have hI := inv_exec n h
  obtain ⟨r', hr'⟩ := (before_mem hb).1
  have hvc := (prog n).ret_view h hc hr'
  have := hI.cancelR c r' hvc
  subst this
  rcases hI.lateR c i _ hvc hv hb with h' | h'
  · simp at h'
  · simpa using h'

example (r : Res Nat) (hr : Ev.ret 4 r ∈ demoH) : r = .val none false :=
  have ⟨_, h⟩ := demo
  C12_late_read 0 h 10 4 r (by simp [demoH]) (by simp [demoH])
    ⟨demoH.take 10, demoH.drop 10, .unit, .read, by simp, by simp [demoH], by simp [demoH]⟩ hr

/-- C76 fails: cancelling the context does not release a `Write` that is already waiting for a receiver, nor a `Read`
waiting for a sender. In these reachable states the context is done, the call has not returned, and it cannot take a
step whatever the scheduler chooses. -/
theorem C76_blocked_refuted :
    (∃ m, (prog (α := Nat) 0).mach.Exec m [.inv 1 (.write 7), .inv 9 .cancelW, .ret 9 .unit] ∧ m.g.wdone = true ∧
      ∀ c, (prog (α := Nat) 0).mach.next m 1 c = none) ∧
    (∃ m, (prog (α := Nat) 0).mach.Exec m [.inv 1 .read, .inv 9 .cancelR, .ret 9 .unit] ∧ m.g.rdone = true ∧
      ∀ c, (prog (α := Nat) 0).mach.next m 1 c = none) :=
  ⟨Mach.exists_exec_state _ [.inv 1 (.write 7), .run 1, .run 1, .inv 9 .cancelW, .run 9, .run 9] _ _ (by exact And.intro rfl (And.intro rfl fun _ => rfl)),
   Mach.exists_exec_state _ [.inv 1 .read, .run 1, .inv 9 .cancelR, .run 9, .run 9] _ _ (by exact And.intro rfl (And.intro rfl fun _ => rfl))⟩

end Verif.XBarrier

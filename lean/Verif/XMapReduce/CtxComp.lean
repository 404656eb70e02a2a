import Verif.XMapReduce.Cut
import Verif.XMapReduce.CompLemmas
/-! # `Map` with a context is a correct component of a network -/
namespace Verif.XMapReduce
open Verif.Go Verif.XTask Verif.XStream Verif.Conc.Net

variable {α β L : Type}

/-- The component and the model of `Map` agree. -/
structure MapCtxSt (items : List α) (f : α → List β) (size : Nat) (m : MR α β) (h : Hist β L) : Prop where
  reach : Reach items f size none m
  drained : m.drained = false
  buf : m.collector.buf = []
  out : h.outs 0 = m.out
  closed : h.closed 0 = m.collector.closed
  log : h.log = []

theorem mapCtx_state {items : List α} {f : α → List β} {size : Nat} {m : (mapCtxC items f size : Comp β L).σ} {h : Hist β L}
    (hr : CReach (mapCtxC items f size : Comp β L) m h) : MapCtxSt items f size m h := by
  induction hr with
  | init => exact ⟨.init, rfl, rfl, rfl, rfl, rfl⟩
  | @step s h l s' hr hs ih =>
    replace hs : MapCtxStep f MR.overCtx s l s' := hs
    cases l with
    | tau =>
      obtain ⟨h1, h2, h4, _⟩ := hs
      refine ⟨ih.reach.step h1, h4.trans ih.drained, by rw [h2]; exact ih.buf, ?_, by rw [h2]; exact ih.closed, ih.log⟩
      show h.outs 0 = s'.out
      rw [ih.out]
      rcases step_cases h1 with ⟨_, e, _⟩ | ⟨_, _, _, _, e, _⟩ | ⟨_, _, _, e, _⟩ | ⟨w, c, hg, _⟩
      · exact e.symm
      · exact e.symm
      · exact e.symm
      · have := (recv_got hg).1; rw [ih.buf] at this; simp at this
    | send q v =>
      obtain ⟨rfl, m₁, h1, b1, h2, b2, ho⟩ := hs
      obtain ⟨_, e1, e2, e3⟩ := send_cases ih.buf h1 b1 h2 b2
      refine ⟨(ih.reach.step h1).step h2, e3.trans ih.drained, b2, ?_, by rw [e1]; exact ih.closed, ih.log⟩
      simp [Hist.add, ih.out, ho]
    | close q =>
      obtain ⟨rfl, h1, hcl⟩ := hs
      rcases step_cases h1 with ⟨_, _, e⟩ | ⟨_, _, _, _, _, e, _⟩ | ⟨_, e1, _, e2, e3, e4⟩ | ⟨w, c, hg, _⟩
      · omega
      · omega
      · exact ⟨ih.reach.step h1, e4.trans ih.drained, by rw [e1]; exact ih.buf, by rw [e2]; exact ih.out, by rw [e1]; simp [Hist.add], ih.log⟩
      · have := (recv_got hg).1; rw [ih.buf] at this; simp at this
    | recv p v => exact hs.elim
    | eof p => exact hs.elim
    | log e => exact hs.elim

/-- A step that is neither one of the consumer nor of the context is a step of the component. -/
theorem ctx_comp_step {items : List α} {f : α → List β} {size : Nat} {m m' : MR α β} {h : Hist β L} (hst : MapCtxSt items f size m h) (hs : Step f m m')
    (hx : m'.ctx = m.ctx) (hd : m'.drained = m.drained) : ∃ l s', MapCtxStep (L := L) f MR.overCtx m l s' ∧ l.isOut = true ∧ s'.ctx = m.ctx := by
  rcases step_cases hs with ⟨e, _⟩ | ⟨v, c, hsd, e, e2, _⟩ | ⟨_, _, e, _⟩ | ⟨w, c, hg, _⟩
  · exact ⟨.tau, m', ⟨hs, e, hd, fun h => absurd hx h⟩, rfl, hx⟩
  · obtain ⟨n1, n2, rfl⟩ := send_sent hsd
    have hb : m'.collector.buf = [v] := by rw [e]; simp [hst.buf]
    have hcr := (inv_reach (hst.reach.step hs)).crashed
    exact ⟨.send 0 v, _, ⟨rfl, m', hs, hb, .consume m' v { m'.collector with buf := [] } hcr (by simp [Chan.recv, hb]), rfl, by simp [e2]⟩, rfl, hx⟩
  · exact ⟨.close 0, m', ⟨rfl, hs, e⟩, rfl, hx⟩
  · have := (recv_got hg).1; rw [hst.buf] at this; simp at this

/-- A mapping that has been started and has not ended can go on, by itself. -/
theorem mapping_progress {items : List α} {f : α → List β} {size : Nat} {m : MR α β} (hi : Inv items f size m) (hsz : 1 ≤ size) (hb : m.collector.buf = [])
    {j : Job α β} (hj : j ∈ m.jobs) (hn : j.d.gor ≠ .none) (he : ∀ o, j.d.gor ≠ .ended o) :
    ∃ m', Step f m m' ∧ m'.ctx = m.ctx ∧ m'.drained = m.drained := by
  have hji := hi.jobs j hj
  obtain ⟨c0, hr⟩ := hji.reach
  have hd := do_inv hr
  obtain ⟨l₁, l₂, hsp⟩ := List.append_of_mem hj
  cases hg : j.d.gor with
  | none => exact absurd hg hn
  | running =>
    cases hw : j.writes with
    | nil => exact ⟨_, .mapReturn m l₁ l₂ j _ hi.crashed hsp hg hw (.finish _ (.returned .nil) hg) rfl, rfl, rfl⟩
    | cons v vs =>
      cases hsn : j.sending with
      | false =>
        by_cases hx : m.ctx = none
        · exact ⟨_, .writeGo m l₁ l₂ j v vs hi.crashed hsp hg hw hsn hx, rfl, rfl⟩
        · exact ⟨_, .writeDone m l₁ l₂ j v vs hi.crashed hsp hg hw hsn hx, rfl, rfl⟩
      | true =>
        cases hsd : m.collector.send v with
        | sent c => exact ⟨_, .writeSent m l₁ l₂ j v vs c hi.crashed hsp hg hw hsn hsd, rfl, rfl⟩
        | panic => exact ⟨_, .writePanic m l₁ l₂ j v vs _ hi.crashed hsp hg hw hsn hsd (.finish _ (.panicked ()) hg) rfl, rfl, rfl⟩
        | blocked =>
          have hlen : m.collector.cap ≤ m.collector.buf.length := by
            unfold Chan.send at hsd
            split at hsd
            · simp at hsd
            · split at hsd
              · simp at hsd
              · omega
          have := hi.coll.1
          rw [hb] at hlen; simp at hlen; omega
  | finished o =>
    cases o with
    | returned e =>
      exact ⟨_, .doStep m l₁ l₂ j _ hi.crashed hsp (.deliverRet _ e _ hg (by simp [Chan.send, hd.capD.1, hd.capD.2, (hd.pending _ (Or.inr hg)).1]; rfl)) rfl
        (fun o ho => by simpa using ho) (by simp), rfl, rfl⟩
    | panicked p =>
      exact ⟨_, .doStep m l₁ l₂ j _ hi.crashed hsp (.deliverPanic _ p _ hg (by simp [Chan.send, hd.capP.1, hd.capP.2, (hd.pending _ (Or.inr hg)).2]; rfl)) rfl
        (fun o ho => by simpa using ho) (by simp), rfl, rfl⟩
    | exited => exact absurd hg hji.exited.1
  | ended o => exact absurd hg (he o)

/-- Until everything has ended, something can happen without waiting for the context. -/
theorem mapCtx_active {items : List α} {f : α → List β} {size : Nat} (hsz : 1 ≤ size) {m : MR α β} {h : Hist β L} (hst : MapCtxSt items f size m h) (hn : ¬ m.overCtx) :
    ∃ l s', MapCtxStep (L := L) f MR.overCtx m l s' ∧ l.isOut = true ∧ s'.ctx = m.ctx := by
  have hi := inv_reach hst.reach
  cases hcl : m.collector.closed with
  | false =>
    obtain ⟨m', hs, hx⟩ := C17_progress hsz hst.reach hst.drained
    refine ctx_comp_step hst hs hx ?_
    cases hs with
    | consumeEnd _ _ hr => simp [Chan.recv, hst.buf, hcl] at hr
    | _ => rfl
  | true =>
    have hpc : m.pc = .ended := by
      have := hi.closed; rw [hcl] at this
      cases hp : m.pc <;> rw [hp] at this <;> simp at this ⊢
    have hw := hi.final (by rw [hpc]; rfl)
    have hdef : ∀ j ∈ m.jobs, j.deferred = true := by
      intro j hj
      have h2 := hi.wg
      have hnd := zero_of_countP (p := notDeferred) (l := m.jobs) (by rw [hpc] at h2; simp only [Pc.running] at h2; omega) j hj
      simpa [notDeferred] using hnd
    by_cases hex : ∃ j ∈ m.jobs, ∀ o, j.d.caller ≠ .left o
    · obtain ⟨j, hj, hl⟩ := hex
      obtain ⟨o, ho⟩ := (hi.jobs j hj).defd (hdef j hj)
      have hlv : j.d.caller = .leave o := by
        rcases ho with ho | ho
        · exact ho
        · exact absurd ho (hl o)
      obtain ⟨l₁, l₂, hsp⟩ := List.append_of_mem hj
      have hpos : 0 < m.jobs.countP occupies := by
        rw [List.countP_pos_iff]; exact ⟨j, hj, by simp [occupies, Caller.gone, hlv]⟩
      rw [← hi.slots.1] at hpos
      cases hb : m.slots.buf with
      | nil => rw [hb] at hpos; simp at hpos
      | cons u t =>
        exact ctx_comp_step hst (.release m l₁ l₂ j o _ _ hi.crashed hsp hlv (hdef j hj) (by simp [Chan.recv, hb]; rfl) (.leave _ o hlv) rfl) rfl rfl
    by_cases hex2 : ∃ j ∈ m.jobs, j.d.gor ≠ .none ∧ ∀ o, j.d.gor ≠ .ended o
    · obtain ⟨j, hj, h1, h2⟩ := hex2
      obtain ⟨m', hs, e1, e2⟩ := mapping_progress hi hsz hst.buf hj h1 h2
      exact ctx_comp_step hst hs e1 e2
    have hjobs : ∀ j ∈ m.jobs, (∃ o, j.d.caller = .left o) ∧ (j.d.gor = .none ∨ ∃ o, j.d.gor = .ended o) := by
      intro j hj
      refine ⟨?_, ?_⟩
      · by_contra hno
        exact hex ⟨j, hj, fun o ho => hno ⟨o, ho⟩⟩
      · by_contra hno
        rw [not_or] at hno
        exact hex2 ⟨j, hj, hno.1, fun o ho => hno.2 ⟨o, ho⟩⟩
    cases hsrc : m.srcClosed with
    | true => exact absurd ⟨hpc, hjobs, .inl hsrc⟩ hn
    | false =>
      have hx : m.ctx ≠ none := (hi.over (by rw [hpc]; rfl)).resolve_right (by simp [hsrc])
      have hg : m.gen = [] := by
        by_contra hg
        exact hn ⟨hpc, hjobs, .inr ⟨hx, hg⟩⟩
      exact ctx_comp_step hst (.closeSource m hi.crashed hg hsrc) rfl rfl

/-- What comes out of `Map` with a context: for every item a prefix of what the mapping writes for it, interleaved; with one worker a prefix
of the whole. -/
theorem mapCtx_good {lim : Nat} {items : List α} {f : α → List β} {size : Nat} (hsz : 1 ≤ size) :
    Good lim (mapCtxC items f size : Comp β L) (fun _ outs log => (∃ ls, List.Forall₂ (· <+: ·) ls (items.map f) ∧ Interleaving ls (outs 0)) ∧
      (size = 1 → outs 0 <+: items.flatMap f) ∧ log = []) where
  safe := by
    intro s h l s' hr _ hs
    have hst := mapCtx_state hr
    replace hs : MapCtxStep f MR.overCtx s l s' := hs
    cases l with
    | tau => trivial
    | send q v =>
      obtain ⟨rfl, m₁, h1, b1, h2, b2, ho⟩ := hs
      exact ⟨Nat.one_pos, by rw [hst.closed]; exact (send_cases hst.buf h1 b1 h2 b2).1⟩
    | close q =>
      obtain ⟨rfl, h1, hcl⟩ := hs
      refine ⟨Nat.one_pos, ?_⟩
      rw [hst.closed]
      have h3 := C16_closed_once (hst.reach.step h1)
      by_contra hc
      have := (C16_closed_once hst.reach).2.1.2 (by simpa using hc)
      omega
    | recv p v => exact hs.elim
    | eof p => exact hs.elim
    | log e => exact hs.elim
  fin := by
    intro s h hr _ hd
    have hst := mapCtx_state hr
    have hi := inv_reach hst.reach
    have hcl : s.collector.closed = true := by rw [hi.closed, hd.1]
    refine ⟨fun p hp => absurd hp (Nat.not_lt_zero p), ?_, ?_, ?_, hst.log⟩
    · intro q hq
      have : q = 0 := Nat.lt_one_iff.1 hq
      subst this
      rw [hst.closed, hcl]
    · obtain ⟨_, ls, h1, _, h2⟩ := C120_cut hst.reach
      rw [hst.buf, List.append_nil, ← hst.out] at h2
      exact ⟨ls, h1, h2⟩
    · rintro rfl
      have := C120_cut_in_order hst.reach
      rwa [hst.buf, List.append_nil, ← hst.out] at this
  live := fun s h hr _ hn => Or.inl (by obtain ⟨l, s', h1, h2, _⟩ := mapCtx_active hsz (mapCtx_state hr) hn; exact ⟨l, s', h1, h2⟩)
  accept := fun s h _ _ p hp => absurd hp (Nat.not_lt_zero p)
  weight := by
    refine ⟨weight f, fun _ _ => 0, ?_⟩
    intro s h l s' hr _ hs
    have hst := mapCtx_state hr
    replace hs : MapCtxStep f MR.overCtx s l s' := hs
    have hi := inv_reach hst.reach
    cases l with
    | tau => exact step_weight hi hs.1
    | send q v =>
      obtain ⟨rfl, m₁, h1, b1, h2, b2, ho⟩ := hs
      exact Nat.lt_trans (step_weight (inv_reach (hst.reach.step h1)) h2) (step_weight hi h1)
    | close q => exact step_weight hi hs.2.1
    | recv p v => exact hs.elim
    | eof p => exact hs.elim
    | log e => exact hs.elim

/-- It sends at most what the mappings write. -/
theorem mapCtx_bound {items : List α} {f : α → List β} {size : Nat} {m : (mapCtxC items f size : Comp β L).σ} {h : Hist β L}
    (hr : CReach (mapCtxC items f size : Comp β L) m h) : (h.outs 0).length ≤ (items.flatMap f).length := by
  rw [(mapCtx_state hr).out]
  exact (C15_no_duplicates (mapCtx_state hr).reach).length_le

end Verif.XMapReduce

import Verif.XMapReduce.Order
/-! # `Map` is a correct component of a network -/
namespace Verif.XMapReduce
open Verif.Go Verif.XTask Verif.XStream Verif.Conc.Net

variable {α β L : Type}

/-- The component and the model of `Map` agree. -/
structure MapSt (items : List α) (f : α → List β) (size : Nat) (m : MR α β) (h : Hist β L) : Prop where
  reach : Reach items f size none m
  ctx : m.ctx = none
  drained : m.drained = false
  buf : m.collector.buf = []
  out : h.outs 0 = m.out
  closed : h.closed 0 = m.collector.closed
  log : h.log = []

/-- The steps that change the channel or the output. -/
theorem step_cases {f : α → List β} {m m' : MR α β} (hs : Step f m m') :
    (m'.collector = m.collector ∧ m'.out = m.out ∧ m'.closes = m.closes) ∨
    (∃ v c, m.collector.send v = .sent c ∧ m'.collector = c ∧ m'.out = m.out ∧ m'.closes = m.closes ∧ m'.ctx = m.ctx ∧ m'.drained = m.drained) ∨
    (m.pc = .close ∧ m'.collector = { m.collector with closed := true } ∧ m'.closes = m.closes + 1 ∧ m'.out = m.out ∧ m'.ctx = m.ctx ∧ m'.drained = m.drained) ∨
    (∃ v c, m.collector.recv = .got v c ∧ m'.collector = c ∧ m'.out = m.out ++ [v] ∧ m'.closes = m.closes ∧ m'.ctx = m.ctx ∧ m'.drained = m.drained) := by
  cases hs with
  | writeSent l₁ l₂ j v vs c _ _ _ _ _ hsd => exact Or.inr (Or.inl ⟨v, c, hsd, rfl, rfl, rfl, rfl, rfl⟩)
  | close _ hp => exact Or.inr (Or.inr (Or.inl ⟨hp, rfl, rfl, rfl, rfl, rfl⟩))
  | consume v c _ hr => exact Or.inr (Or.inr (Or.inr ⟨v, c, hr, rfl, rfl, rfl, rfl, rfl⟩))
  | _ => exact Or.inl ⟨rfl, rfl, rfl⟩

/-- What a send is, in terms of `Step`. -/
theorem send_cases {f : α → List β} {m m₁ m' : MR α β} {v : β} (hb : m.collector.buf = []) (h1 : Step f m m₁) (b1 : m₁.collector.buf = [v])
    (h2 : Step f m₁ m') (b2 : m'.collector.buf = []) :
    m.collector.closed = false ∧ m'.collector = m.collector ∧ m'.ctx = m.ctx ∧ m'.drained = m.drained := by
  rcases step_cases h1 with ⟨e, _⟩ | ⟨w, c, hsd, e, _, _, e2, e3⟩ | ⟨_, e, _⟩ | ⟨w, c, hr, e, _⟩
  · rw [e, hb] at b1; simp at b1
  · obtain ⟨n1, n2, rfl⟩ := send_sent hsd
    rcases step_cases h2 with ⟨e', _⟩ | ⟨w, c, hsd', e', _⟩ | ⟨_, e', _⟩ | ⟨w, c, hr, e', _, _, e2', e3'⟩
    · rw [e', b1] at b2; simp at b2
    · obtain ⟨_, _, rfl⟩ := send_sent hsd'
      rw [e'] at b2; simp at b2
    · rw [e'] at b2; rw [show ({ m₁.collector with closed := true } : Chan β).buf = m₁.collector.buf from rfl, b1] at b2; simp at b2
    · obtain ⟨_, b4⟩ := recv_got hr
      refine ⟨n1, ?_, e2'.trans e2, e3'.trans e3⟩
      rw [e'] at b2
      rw [e', b4, b2, e, ← hb]
  · rw [e] at b1; rw [show ({ m.collector with closed := true } : Chan β).buf = m.collector.buf from rfl, hb] at b1; simp at b1
  · have := (recv_got hr).1; rw [hb] at this; simp at this

theorem map_state {items : List α} {f : α → List β} {size : Nat} {m : (mapC items f size : Comp β L).σ} {h : Hist β L} (hr : CReach (mapC items f size : Comp β L) m h) :
    MapSt items f size m h := by
  induction hr with
  | init => exact ⟨.init, rfl, rfl, rfl, rfl, rfl, rfl⟩
  | @step s h l s' hr hs ih =>
    replace hs : MapStep f s l s' := hs
    cases l with
    | tau =>
      obtain ⟨h1, h2, h3, h4⟩ := hs
      refine ⟨ih.reach.step h1, h3.trans ih.ctx, h4.trans ih.drained, by rw [h2]; exact ih.buf, ?_, by rw [h2]; exact ih.closed, ih.log⟩
      show h.outs 0 = s'.out
      rw [ih.out]
      rcases step_cases h1 with ⟨_, e, _⟩ | ⟨_, _, _, _, e, _⟩ | ⟨_, _, _, e, _⟩ | ⟨w, c, hg, _⟩
      · exact e.symm
      · exact e.symm
      · exact e.symm
      · have := (recv_got hg).1; rw [ih.buf] at this; simp at this
    | send q v =>
      obtain ⟨rfl, m₁, h1, b1, h2, b2, ho⟩ := hs
      obtain ⟨_, e1, e2, e3⟩ := send_cases ih.buf h1 b1 h2 b2
      refine ⟨(ih.reach.step h1).step h2, e2.trans ih.ctx, e3.trans ih.drained, b2, ?_, by rw [e1]; exact ih.closed, ih.log⟩
      simp [Hist.add, ih.out, ho]
    | close q =>
      obtain ⟨rfl, h1, hcl⟩ := hs
      rcases step_cases h1 with ⟨_, _, e⟩ | ⟨_, _, _, _, _, e, _⟩ | ⟨_, e1, _, e2, e3, e4⟩ | ⟨w, c, hg, _⟩
      · omega
      · omega
      · exact ⟨ih.reach.step h1, e3.trans ih.ctx, e4.trans ih.drained, by rw [e1]; exact ih.buf, by rw [e2]; exact ih.out, by rw [e1]; simp [Hist.add], ih.log⟩
      · have := (recv_got hg).1; rw [ih.buf] at this; simp at this
    | recv p v => exact hs.elim
    | eof p => exact hs.elim
    | log e => exact hs.elim

/-- A step that is neither one of the consumer nor of the context is a step of the component. -/
theorem comp_step {items : List α} {f : α → List β} {size : Nat} {m m' : MR α β} {h : Hist β L} (hst : MapSt items f size m h) (hs : Step f m m')
    (hx : m'.ctx = m.ctx) (hd : m'.drained = m.drained) : ∃ l s', MapStep (L := L) f m l s' ∧ l.isOut = true := by
  rcases step_cases hs with ⟨e, _⟩ | ⟨v, c, hsd, e, e2, _⟩ | ⟨_, _, e, _⟩ | ⟨w, c, hg, _⟩
  · exact ⟨.tau, m', ⟨hs, e, hx, hd⟩, rfl⟩
  · obtain ⟨n1, n2, rfl⟩ := send_sent hsd
    have hb : m'.collector.buf = [v] := by rw [e]; simp [hst.buf]
    have hcr := (inv_reach (hst.reach.step hs)).crashed
    exact ⟨.send 0 v, _, ⟨rfl, m', hs, hb, .consume m' v { m'.collector with buf := [] } hcr (by simp [Chan.recv, hb]), rfl, by simp [e2]⟩, rfl⟩
  · exact ⟨.close 0, m', ⟨rfl, hs, e⟩, rfl⟩
  · have := (recv_got hg).1; rw [hst.buf] at this; simp at this

theorem map_active {items : List α} {f : α → List β} {size : Nat} (hsz : 1 ≤ size) {m : MR α β} {h : Hist β L} (hst : MapSt items f size m h) (hn : ¬ m.over) :
    ∃ l s', MapStep (L := L) f m l s' ∧ l.isOut = true := by
  have hi := inv_reach hst.reach
  cases hcl : m.collector.closed with
  | false =>
    obtain ⟨m', hs, hx⟩ := C17_progress hsz hst.reach hst.drained
    refine comp_step hst hs hx ?_
    cases hs with
    | consumeEnd _ _ hr => simp [Chan.recv, hst.buf, hcl] at hr
    | _ => rfl
  | true =>
    have hpc : m.pc = .ended := by
      have := hi.closed; rw [hcl] at this
      cases hp : m.pc <;> rw [hp] at this <;> simp at this ⊢
    have hw := hi.final (by rw [hpc]; rfl)
    have hsrc : m.srcClosed = true := (hi.over (by rw [hpc]; rfl)).resolve_left (fun h' => h' hst.ctx)
    have hdef : ∀ j ∈ m.jobs, j.deferred = true := by
      intro j hj
      have h2 := hi.wg
      have hnd := zero_of_countP (p := notDeferred) (l := m.jobs) (by rw [hpc] at h2; simp only [Pc.running] at h2; omega) j hj
      simpa [notDeferred] using hnd
    have hex : ∃ j ∈ m.jobs, ∀ o, j.d.caller ≠ .left o := by
      by_contra hno
      refine hn ⟨hsrc, hpc, fun j hj => ⟨?_, ?_⟩⟩
      · by_contra hno'
        exact hno ⟨j, hj, fun o ho => hno' ⟨o, ho⟩⟩
      · obtain ⟨_, e, he⟩ := left_written hi hst.ctx hj (hdef j hj); exact ⟨_, he⟩
    obtain ⟨j, hj, hl⟩ := hex
    obtain ⟨o, ho⟩ := (hi.jobs j hj).defd (hdef j hj)
    have hlv : j.d.caller = .leave o := by
      rcases ho with ho | ho
      · exact ho
      · exact absurd ho (hl o)
    obtain ⟨l₁, l₂, hsp⟩ := List.append_of_mem hj
    have hpos : 0 < m.jobs.countP occupies := by
      rw [List.countP_pos_iff]; exact ⟨j, hj, by simp [occupies, Caller.gone, hlv]⟩
    rw [← hi.slots.1] at hpos
    cases hb : m.slots.buf with
    | nil => rw [hb] at hpos; simp at hpos
    | cons u t =>
      exact comp_step hst (.release m l₁ l₂ j o _ _ hi.crashed hsp hlv (hdef j hj) (by simp [Chan.recv, hb]; rfl) (.leave _ o hlv) rfl) rfl rfl

theorem map_good {lim : Nat} {items : List α} {f : α → List β} {size : Nat} (hsz : 1 ≤ size) :
    Good lim (mapC items f size : Comp β L) (fun _ outs log => Interleaving (items.map f) (outs 0) ∧ (size = 1 → outs 0 = items.flatMap f) ∧ log = []) where
  safe := by
    intro s h l s' hr _ hs
    have hst := map_state hr
    replace hs : MapStep f s l s' := hs
    cases l with
    | tau => trivial
    | send q v =>
      obtain ⟨rfl, m₁, h1, b1, h2, b2, ho⟩ := hs
      exact ⟨Nat.one_pos, by rw [hst.closed]; exact (send_cases hst.buf h1 b1 h2 b2).1⟩
    | close q =>
      obtain ⟨rfl, h1, hcl⟩ := hs
      refine ⟨Nat.one_pos, ?_⟩
      rw [hst.closed]
      have h3 := C16_closed_once (hst.reach.step h1)
      by_contra hc
      have := (C16_closed_once hst.reach).2.1.2 (by simpa using hc)
      omega
    | recv p v => exact hs.elim
    | eof p => exact hs.elim
    | log e => exact hs.elim
  fin := by
    intro s h hr _ hd
    have hst := map_state hr
    have hi := inv_reach hst.reach
    have hcl : s.collector.closed = true := by rw [hi.closed, hd.2.1]
    have hend : Step f s { s with drained := true } := .consumeEnd s hi.crashed hst.drained (by simp [Chan.recv, hst.buf, hcl])
    have hr' := hst.reach.step hend
    refine ⟨fun p hp => absurd hp (Nat.not_lt_zero p), ?_, ?_, ?_, hst.log⟩
    · intro q hq
      have : q = 0 := Nat.lt_one_iff.1 hq
      subst this
      rw [hst.closed, hcl]
    · rw [hst.out]; exact C103_order (m := { s with drained := true }) hr' hst.ctx rfl
    · rintro rfl; rw [hst.out]; exact C103_in_order (m := { s with drained := true }) hr' hst.ctx rfl
  live := fun s h hr _ hn => Or.inl (map_active hsz (map_state hr) hn)
  accept := fun s h _ _ p hp => absurd hp (Nat.not_lt_zero p)
  weight := by
    refine ⟨weight f, fun _ _ => 0, ?_⟩
    intro s h l s' hr _ hs
    have hst := map_state hr
    replace hs : MapStep f s l s' := hs
    have hi := inv_reach hst.reach
    cases l with
    | tau => exact step_weight hi hs.1
    | send q v =>
      obtain ⟨rfl, m₁, h1, b1, h2, b2, ho⟩ := hs
      exact Nat.lt_trans (step_weight (inv_reach (hst.reach.step h1)) h2) (step_weight hi h1)
    | close q => exact step_weight hi hs.2.1
    | recv p v => exact hs.elim
    | eof p => exact hs.elim
    | log e => exact hs.elim

/-- It sends at most what the mappings write. -/
theorem map_bound {items : List α} {f : α → List β} {size : Nat} {m : (mapC items f size : Comp β L).σ} {h : Hist β L} (hr : CReach (mapC items f size : Comp β L) m h) :
    (h.outs 0).length ≤ (items.flatMap f).length := by
  rw [(map_state hr).out]
  exact (C15_no_duplicates (map_state hr).reach).length_le

end Verif.XMapReduce

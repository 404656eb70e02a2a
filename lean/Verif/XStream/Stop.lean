import Verif.Conc.Stop
import Verif.XStream.Room
/-!
# C110: consumers that stop reading

A consumer may stop at any moment: it makes no further step, and the others go on until none of them can move (`OnlyMoves`). Whether they have
then all finished depends on whether what the stopped consumers leave unread fits in the buffers of their channels.
-/
namespace Verif.XStream
open Verif.Go Verif.Conc.Net

variable {α K : Type} [DecidableEq K]

/-- In any program: if the terminal operations `U` have stopped, and the channels to them have room for all that can still be sent on them, then
everybody else gets to their end. -/
theorem stopped_room {N : Net (Val α) (Ev α K)} {node : Nat → Node α K} {b : Nat → Nat → Nat} (hp : IsProgram N node) (hB : N.Bounded lim b)
    {U : Nat → Prop} (hU : ∀ u < N.n, U u → (N.comp u).nout = 0) {m : NState N} (hr : NReach N m) (hstop : OnlyMoves U m)
    (hroom : ∀ i < N.n, ∀ q < (N.comp i).nout, U (N.dst i q).1 →
      b i q ≤ ((m.hist (N.dst i q).1).ins (N.dst i q).2).length + (node i).room q ((m.hist i).ins 0).length) :
    ∀ i < N.n, ¬ U i → (N.comp i).done (m.st i) := by
  refine stopped_done hp.wf hB hp.good hU hr hstop fun i hi q hq hu v s' hst => ?_
  have hf := small_of_bounded hp.wf hB hp.good
  rw [node_cap (hp.built i hi) (hp.valid i hi) ((hp.inv hf hr).reach i hi) hst hq]
  exact hroom i hi q hq hu

/-! ## A pipeline whose terminal operation stops -/

variable {src : Source α} {ops : List (Op α K)} {term : Term α K} {N : Net (Val α) (Ev α K)}

theorem program_bounded (h : program src ops term = some N) (hv : ∀ o ∈ ops, o.Valid) {b : Nat} (h1 : 1 ≤ b) (he : ∀ o ∈ ops, o.Emits b)
    (hlt : max 1 src.items.length * b ^ ops.length < 2 ^ 63) :
    N.Bounded lim fun i _ => if i ≤ (stages ops).length then max 1 src.items.length * b ^ i else 0 := by
  unfold program at h
  rw [Option.map_eq_some_iff] at h
  obtain ⟨cs, hb, rfl⟩ := h
  have hf := buildAll_stages ops cs hb
  rw [hf.length_eq]
  refine chain_bounded (source_shape src) (source_sends src) term hf (fun o ho => hv o (stages_sub ops o ho)) h1 (fun o ho => he o (stages_sub ops o ho)) ?_
  refine Nat.lt_of_le_of_lt ?_ hlt
  exact Nat.mul_le_mul_left _ (Nat.pow_le_pow_right h1 (stages_length ops))

theorem program_shape (h : program src ops term = some N) : (∀ i q, N.dst i q = (i + 1, 0)) ∧ (∀ i q, N.src i q = (i - 1, 0)) ∧
    (N.comp (N.n - 1)).nout = 0 ∧ (N.comp (N.n - 1)).nin = 1 ∧ N.comp 0 = src.comp := by
  unfold program at h
  rw [Option.map_eq_some_iff] at h
  obtain ⟨cs, hb, rfl⟩ := h
  obtain ⟨p0, -, p2⟩ := chain_comp (src.comp : Comp (Val α) (Ev α K)) cs term
  have hn : (pipe (src.comp :: cs ++ [term.comp])).n - 1 = cs.length + 1 := by simp [pipe]
  refine ⟨fun _ _ => rfl, fun _ _ => rfl, ?_, ?_, p0⟩
  · rw [hn, p2]; exact (term_shape term).2
  · rw [hn, p2]; exact (term_shape term).1

/-- C110: when the terminal operation of a pipeline stops reading, everything before it gets to its end all the same, if all that the pipeline can
send at most fits: what the terminal operation has received, and the room in the channel to it. -/
theorem C110_pipeline (h : program src ops term = some N) (hv : ∀ o ∈ ops, o.Valid) {b : Nat} (h1 : 1 ≤ b) (he : ∀ o ∈ ops, o.Emits b)
    (hlt : max 1 src.items.length * b ^ ops.length < 2 ^ 63) {m : NState N} (hr : NReach N m) (hstop : OnlyMoves (· = N.n - 1) m)
    (hroom : max 1 src.items.length * b ^ (stages ops).length ≤ ((m.hist (N.n - 1)).ins 0).length +
      (pipeNodes src (stages ops) term (N.n - 2)).room 0 ((m.hist (N.n - 2)).ins 0).length) :
    ∀ i < N.n - 1, (N.comp i).done (m.st i) := by
  obtain ⟨hp, hn⟩ := program_is h hv
  obtain ⟨hd, hsr, ho, -, -⟩ := program_shape h
  intro i hi
  refine stopped_room hp (program_bounded h hv h1 he hlt) (U := (· = N.n - 1)) ?_ hr hstop ?_ i (by omega) (by omega)
  · rintro u - rfl; exact ho
  · intro j hj q hq hu
    rw [hd] at hu ⊢
    simp only at hu ⊢
    have hj' : j = N.n - 2 := by omega
    have hq0 : q = 0 := by
      have hw := (hp.wf.hdst j hj q hq).2.2
      rw [hd, hsr, Prod.mk.injEq] at hw
      exact hw.2.symm
    subst hq0
    rw [hu, hj', if_pos (by omega), show N.n - 2 = (stages ops).length by omega]
    rw [show N.n - 2 = (stages ops).length by omega] at hroom
    exact hroom

/-- C110: a source whose consumer stops reading finishes exactly if what it has not handed over by then fits in its channel: always for `Of`, if
the consumer has received everything for `From`, if the rest fits in the buffer for a given channel. Otherwise its goroutine waits for ever. -/
theorem C110_source (h : program src [] term = some N) (hlt : src.items.length < 2 ^ 63) {m : NState N} (hr : NReach N m) (hstop : OnlyMoves (· = 1) m) :
    (N.comp 0).done (m.st 0) ↔ src.items.length ≤ ((m.hist 1).ins 0).length + (Node.source (K := K) src).room 0 0 := by
  obtain ⟨hp, hn⟩ := program_is h (by simp)
  obtain ⟨hd, hsr, ho, hi1, h0⟩ := program_shape h
  simp only [stages, List.length_nil] at hn
  have hr0 : ∀ k, (pipeNodes src (stages []) term 0 : Node α K).room 0 k = (Node.source (K := K) src).room 0 0 := by
    intro k; cases src <;> rfl
  rw [hn] at ho hi1
  have hB : N.Bounded lim fun _ _ => src.items.length := by
    refine ⟨fun _ _ _ _ => hlt, ?_⟩
    intro i hi s hh hreach hs hin q hq
    have hi' : i = 0 ∨ i = 1 := by omega
    rcases hi' with rfl | rfl
    · have key : ∀ C : Comp (Val α) (Ev α K), C = src.comp → ∀ (s : C.σ) (h : Hist (Val α) (Ev α K)), CReach C s h → ∀ q < C.nout,
          (h.outs q).length ≤ src.items.length := by
        rintro C rfl s h hr q hq
        rw [(source_shape src).2] at hq
        have : q = 0 := by omega
        subst this
        exact source_sends src s h hr
      exact key _ h0 s hh hreach q hq
    · simp only [Nat.add_one_sub_one] at ho
      omega
  have hf := small_of_bounded hp.wf hB hp.good
  have h0o : (N.comp 0).nout = 1 := by rw [h0]; exact (source_shape src).2
  constructor
  · intro hdone
    have h1 := (stopped_final hp.wf hB hp.good hr (i := 0) (by omega) hdone).1
    have h2 := C90_run_ahead hp hf hr (i := 0) (q := 0) (by omega) (by omega)
    rw [hd, hr0, show (m.hist 0).outs 0 = src.items from h1.1] at h2
    exact h2
  · intro hroom
    refine stopped_room hp hB (U := (· = 1)) ?_ hr hstop ?_ 0 (by omega) (by omega)
    · rintro u - rfl; exact ho
    · intro j hj q hq hu
      rw [hd] at hu ⊢
      simp only at hu ⊢
      have hj' : j = 0 := by omega
      subst hj'
      have hq0 : q = 0 := by omega
      subst hq0
      rw [hr0]; exact hroom

/-- Nobody reads `Of(1, 2, 3)`. -/
theorem demo_stop : ∃ N : Net (Val Nat) (Ev Nat Nat), program (.of [.atom 1, .atom 2, .atom 3]) [] .count = some N ∧
    ∃ m, NReach N m ∧ OnlyMoves (· = 1) m :=
  ⟨_, rfl, (stops (program_is (src := .of [.atom 1, .atom 2, .atom 3]) (ops := []) rfl (by simp)).1.wf
    (program_few (b := 1) (src := .of [.atom 1, .atom 2, .atom 3]) (ops := []) rfl (by simp) (by simp) (by simp) (by simp [Source.items]))
    (program_is (src := .of [.atom 1, .atom 2, .atom 3]) (ops := []) rfl (by simp)).1.good (· = 1) .init).imp fun _ h => h.2⟩

example := demo_stop.imp fun _ h => h.2.imp fun _ hm =>
  (C110_source h.1 (by decide) hm.1 hm.2).mpr (by simp [Source.items, Node.room])

/-- Nobody reads `Of(1).Buffer(2)`. -/
theorem demo_stop_buffer : ∃ N : Net (Val Nat) (Ev Nat Nat), program (.of [.atom 1]) [.buffer 2] .count = some N ∧
    ∃ m, NReach N m ∧ OnlyMoves (· = N.n - 1) m :=
  ⟨_, rfl, (stops (program_is (src := .of [.atom 1]) (ops := [.buffer 2]) rfl (by simp [Op.Valid])).1.wf
    (program_few (b := 1) (src := .of [.atom 1]) (ops := [.buffer 2]) rfl (by simp [Op.Valid]) (by simp) (by simp [Op.Emits]) (by simp [Source.items]))
    (program_is (src := .of [.atom 1]) (ops := [.buffer 2]) rfl (by simp [Op.Valid])).1.good (· = 2) .init).imp fun _ h => h.2⟩

example := demo_stop_buffer.imp fun N h => h.2.imp fun _ hm =>
  C110_pipeline h.1 (b := 1) (by simp [Op.Valid]) (by simp) (by simp [Op.Emits]) (by simp [Source.items]) hm.1 hm.2
    (by
      have hn : N.n = 3 := (program_is h.1 (by simp [Op.Valid])).2
      rw [hn]
      exact Nat.le_trans (show 1 ≤ 2 by omega) (Nat.le_add_left _ _))

/-! ## Copies whose consumers stop -/

variable {M : Type} {channels : List (M × Nat)} {terms : Nat → Term α K}

/-- The consumers of the copies in `S`. -/
def consumers (S : Nat → Prop) (u : Nat) : Prop := ∃ q, S q ∧ u = q + 2

/-- All that the stopped consumers `S` of a copied stream of `n` values leave unread fits in the channels which were asked for. -/
def Fits (channels : List (M × Nat)) (S : Nat → Prop) (n : Nat) (received : Nat → Nat) : Prop :=
  ∀ (q : Nat) (hq : q < channels.length), S q → n ≤ received q + (channels[q]).2

theorem copyNet_stop_room (hlt : src.items.length < 2 ^ 63) (S : Nat → Prop) {m : NState (copyNet src channels terms)} (hr : NReach _ m)
    (hstop : OnlyMoves (consumers S) m) (hfit : Fits channels S src.items.length fun q => ((m.hist (q + 2)).ins 0).length) :
    ∀ i < channels.length + 2, ¬ consumers S i → ((copyNet src channels terms).comp i).done (m.st i) := by
  have hp := copyNet_program src channels terms
  refine stopped_room hp (copyNet_bounded src channels terms hlt) (U := consumers S) ?_ hr hstop ?_
  · rintro u - ⟨q, -, rfl⟩
    have : (copyNet src channels terms).comp (q + 2) = (terms q).comp := by simp [copyNet]
    rw [this]; exact (term_shape _).2
  · intro i hi q hq hu
    by_cases h0 : i = 0
    · subst h0
      obtain ⟨q', -, e⟩ := hu
      have e : 1 = q' + 2 := e
      omega
    · by_cases h1 : i = 1
      · subst h1
        obtain ⟨q', hS, e⟩ := hu
        have e : q + 2 = q' + 2 := e
        have e : q' = q := by omega
        subst e
        have hq' : q' < channels.length := by
          have : ((copyNet src channels terms).comp 1).nout = (channels.map Prod.snd).length := rfl
          rw [this, List.length_map] at hq
          exact hq
        have := hfit q' hq' hS
        have e1 : (copyNet src channels terms).dst 1 q' = (q' + 2, 0) := rfl
        have e2 : ((copyNodes src channels terms 1 : Node α K).room q' ((m.hist 1).ins 0).length) = (channels[q']).2 := by
          simp [copyNodes, Node.room, List.getElem?_eq_getElem hq']
        rw [e1, e2]
        exact this
      · have : (copyNet src channels terms).comp i = (terms (i - 2)).comp := by simp [copyNet, h0, h1]
        rw [this, (term_shape _).2] at hq
        omega

theorem consumers_two {S : Nat → Prop} {q : Nat} (h : ¬ S q) : ¬ consumers S (q + 2) := by
  rintro ⟨q', h', e⟩
  have : q' = q := by omega
  exact h (this ▸ h')

/-- C110: if the consumers of some copies stop, and all that they leave unread fits in the channels which were asked for, then Copy and its source
get to their ends, and every other copy is consumed to its end, with the whole stream. -/
theorem C110_copy (hlt : src.items.length < 2 ^ 63) (S : Nat → Prop) {m : NState (copyNet src channels terms)} (hr : NReach _ m)
    (hstop : OnlyMoves (consumers S) m) (hfit : Fits channels S src.items.length fun q => ((m.hist (q + 2)).ins 0).length) :
    (∀ i < 2, ((copyNet src channels terms).comp i).done (m.st i)) ∧
    ∀ q < channels.length, ¬ S q → (m.hist (q + 2)).eof 0 = true ∧ (m.hist (q + 2)).ins 0 = src.items ∧
      (terms q).Does src.items (m.hist (q + 2)).log := by
  have hp := copyNet_program src channels terms
  have hB := copyNet_bounded (K := K) src channels terms hlt
  have hf := copyNet_few (K := K) src channels terms hlt
  have hdone := copyNet_stop_room hlt S hr hstop hfit
  have hd2 : ∀ i < 2, ((copyNet src channels terms).comp i).done (m.st i) := fun i hi =>
    hdone i (by omega) (by rintro ⟨q, -, e⟩; omega)
  refine ⟨hd2, fun q hq hS => ?_⟩
  have hdq := hdone (q + 2) (by omega) (consumers_two hS)
  have h0 := stopped_final hp.wf hB hp.good hr (i := 0) (by show _ < channels.length + 2; omega) (hd2 0 (by omega))
  have h1 := stopped_final hp.wf hB hp.good hr (i := 1) (by show _ < channels.length + 2; omega) (hd2 1 (by omega))
  have h2 := stopped_final hp.wf hB hp.good hr (i := q + 2) (by show _ < channels.length + 2; omega) hdq
  have n2 : copyNodes src channels terms (q + 2) = .term (terms q) := by simp [copyNodes]
  have c2 : ((copyNet src channels terms).comp (q + 2)).nin = 1 := by
    have : (copyNet src channels terms).comp (q + 2) = (terms q).comp := by simp [copyNet]
    rw [this]; exact (term_shape _).1
  have e2 : (copyNet src channels terms).src (q + 2) 0 = (1, q) := by
    show (if q + 2 = 1 then (0, 0) else (1, q + 2 - 2)) = _
    rw [if_neg (by omega), Nat.add_sub_cancel]
  have i1 : (m.hist 1).ins 0 = (m.hist 0).outs 0 := h1.2 0 (by simp [copyNet, Seq.comp, copyS])
  have i2 : (m.hist (q + 2)).ins 0 = (m.hist 1).outs q := by
    have := h2.2 0 (by rw [c2]; omega)
    rw [e2] at this; exact this
  have o0 : (m.hist 0).outs 0 = src.items := h0.1.1
  have o1 : (m.hist 1).outs q = (m.hist 1).ins 0 := h1.1.1 q hq
  have i3 : (m.hist (q + 2)).ins 0 = src.items := by rw [i2, o1, i1, o0]
  have hinv := hp.inv hf hr
  have hfin := (hp.good (q + 2) (by show _ < channels.length + 2; omega)).fin _ _ (hinv.reach _ (by show _ < channels.length + 2; omega))
    (hf m hr _ (by show _ < channels.length + 2; omega)) hdq
  refine ⟨hfin.1 0 (by rw [c2]; omega), i3, ?_⟩
  have h3 := h2.1
  rw [n2] at h3
  rw [← i3]; exact h3

/-- C110: conversely, no consumer of a copy sees its end before all that the consumers of the other copies have not received fits in the channels
which were asked for: one that stops earlier keeps the other copies, Copy and its source from ever ending. -/
theorem C110_copy_end (hlt : src.items.length < 2 ^ 63) {m : NState (copyNet src channels terms)} (hr : NReach _ m) {q : Nat} (hq : q < channels.length)
    (hend : (m.hist (q + 2)).eof 0 = true) (S : Nat → Prop) : Fits channels S src.items.length fun q => ((m.hist (q + 2)).ins 0).length := by
  have hp := copyNet_program src channels terms
  have hf := copyNet_few (K := K) src channels terms hlt
  have hinv := hp.inv hf hr
  have hn : 1 < (copyNet src channels terms).n := by show _ < channels.length + 2; omega
  have hno : ((copyNet src channels terms).comp 1).nout = channels.length := by
    have : ((copyNet src channels terms).comp 1).nout = (channels.map Prod.snd).length := rfl
    rw [this, List.length_map]
  have hcl : m.closed 1 q = true := (hinv.eofs 1 hn q (by omega) hend).1
  -- Copy has closed a channel, so it has sent everything it received
  have hci : copyInv (channels.map Prod.snd).length (m.st 1) (m.hist 1) :=
    Seq.inv (P := copyS (channels.map Prod.snd)) (by simp [copyInv, Hist.empty, copyS]) (copy_ok (channels.map Prod.snd)) (hinv.reach 1 hn) (hf m hr 1 hn)
  rw [List.length_map] at hci
  rw [hinv.cl 1 hn q (by omega)] at hcl
  have hall : ∀ p < channels.length, (m.hist 1).outs p = (m.hist 1).ins 0 := by
    generalize m.st 1 = s at hci
    cases s with
    | loop => rw [hci.2.1 q hq] at hcl; simp at hcl
    | send v i => rw [hci.2.1 q hq] at hcl; simp at hcl
    | closing i => exact hci.2.2.1
    | done => exact hci.2.2.1
  -- nothing will be added
  have hitems : (m.hist 1).outs q = src.items := by
    obtain ⟨m', hs, hd⟩ := reaches_end hp.wf hf hp.good hr
    have h1 := (closed_steps hs (i := 1) (q := q) (by rw [hinv.cl 1 hn q (by omega)]; exact hcl)).2
    have hr' := reach_steps hr hs
    obtain ⟨f1, f2⟩ := final hp.wf hf hp.good hr' hd
    have g0 := f1 0 (by show _ < channels.length + 2; omega)
    have g1 := f1 1 hn
    have i1 : (m'.hist 1).ins 0 = (m'.hist 0).outs 0 := f2 1 hn 0 (by simp [copyNet, Seq.comp, copyS])
    rw [← h1, show (m'.hist 1).outs q = (m'.hist 1).ins 0 from g1.1 q hq, i1]; exact g0.1
  intro p hpl _
  have h := C90_run_ahead hp hf hr (i := 1) (q := p) hn (by omega)
  have e1 : (copyNet src channels terms).dst 1 p = (p + 2, 0) := rfl
  have e2 : ((copyNodes src channels terms 1 : Node α K).room p ((m.hist 1).ins 0).length) = (channels[p]).2 := by
    simp [copyNodes, Node.room, List.getElem?_eq_getElem hpl]
  rw [e1, e2, hall p hpl, ← hall q hq, hitems] at h
  exact h

/-- The second copy of `1, 2` is never read; its channel has a buffer of 3. -/
theorem demo_copy_stop : ∃ m : NState (copyNet (K := Nat) (.gen [.atom 1, .atom 2]) [("a", 0), ("b", 3)] fun _ => .count),
    NReach _ m ∧ OnlyMoves (consumers (· = 1)) m :=
  have hp := copyNet_program (K := Nat) (.gen [.atom 1, .atom 2]) [("a", 0), ("b", 3)] fun _ => .count
  (stops hp.wf (copyNet_few _ _ _ (by decide)) hp.good (consumers (· = 1)) .init).imp fun _ h => h.2

theorem demo_copy_fits (r : Nat → Nat) : Fits [("a", 0), ("b", 3)] (· = 1) (Source.gen [Val.atom 1, Val.atom 2]).items.length r := by
  intro q hq e
  subst e
  simp [Source.items]

example := demo_copy_stop.imp fun _ h => C110_copy (by decide) _ h.1 h.2 (demo_copy_fits _)

example := demo_copy_stop.imp fun _ h =>
  C110_copy_end (by decide) h.1 (q := 0) (by decide) ((C110_copy (by decide) _ h.1 h.2 (demo_copy_fits _)).2 0 (by decide) (by decide)).1 fun _ => True

end Verif.XStream

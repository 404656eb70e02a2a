import Verif.XStream.Stop
/-! # C84: the streams returned by Copy are not independent -/
namespace Verif.XStream
open Verif.Go Verif.Conc.Net

variable {α K M : Type} [DecidableEq K] {src : Source α} {channels : List (M × Nat)} {terms : Nat → Term α K}

theorem copyNet_nout : ((copyNet src channels terms).comp 1).nout = channels.length := by
  have : ((copyNet src channels terms).comp 1).nout = (channels.map Prod.snd).length := rfl
  rw [this, List.length_map]

theorem copyNet_term (q : Nat) : (copyNet src channels terms).comp (q + 2) = (terms q).comp := by simp [copyNet]

theorem copyNet_copyInv (hlt : src.items.length < 2 ^ 63) {m : NState (copyNet src channels terms)} (hr : NReach _ m) :
    copyInv channels.length (m.st 1) (m.hist 1) := by
  have hp := copyNet_program src channels terms
  have hf := copyNet_few (K := K) src channels terms hlt
  have hn : 1 < (copyNet src channels terms).n := by show _ < channels.length + 2; omega
  have hci : copyInv (channels.map Prod.snd).length (m.st 1) (m.hist 1) :=
    Seq.inv (P := copyS (channels.map Prod.snd)) (by simp [copyInv, Hist.empty, copyS]) (copy_ok (channels.map Prod.snd)) ((hp.inv hf hr).reach 1 hn) (hf m hr 1 hn)
  rwa [List.length_map] at hci

/-- C84: no copy gets further ahead of another one than the buffer which was asked for the latter: what copy `q` has been sent is at most what
the consumer of copy `k` has received, what fits in the channel of copy `k`, and one more if Copy serves `q` before `k`. -/
theorem C84_ahead (hlt : src.items.length < 2 ^ 63) {m : NState (copyNet src channels terms)} (hr : NReach _ m) {q k : Nat} (hq : q < channels.length)
    (hk : k < channels.length) :
    ((m.hist 1).outs q).length ≤ ((m.hist (k + 2)).ins 0).length + (channels[k]).2 + if q < k then 1 else 0 := by
  have hp := copyNet_program src channels terms
  have hf := copyNet_few (K := K) src channels terms hlt
  have hn : 1 < (copyNet src channels terms).n := by show _ < channels.length + 2; omega
  have h := C90_run_ahead hp hf hr (i := 1) (q := k) hn (by rw [copyNet_nout]; exact hk)
  have e1 : (copyNet src channels terms).dst 1 k = (k + 2, 0) := rfl
  have e2 : ((copyNodes src channels terms 1 : Node α K).room k ((m.hist 1).ins 0).length) = (channels[k]).2 := by
    simp [copyNodes, Node.room, List.getElem?_eq_getElem hk]
  rw [e1, e2] at h
  have hci := copyNet_copyInv hlt hr
  have key : ((m.hist 1).outs q).length ≤ ((m.hist 1).outs k).length + if q < k then 1 else 0 := by
    generalize m.st 1 = s at hci
    cases s with
    | loop => rw [hci.2.2.1 q hq, hci.2.2.1 k hk]; omega
    | send v i =>
      obtain ⟨-, -, -, pre, h1, h2⟩ := hci
      rw [h2 q hq, h2 k hk, h1]
      split <;> split <;> split <;> simp <;> omega
    | closing i => rw [hci.2.2.1 q hq, hci.2.2.1 k hk]; omega
    | done => rw [hci.2.2.1 q hq, hci.2.2.1 k hk]; omega
  simp only at h
  omega

/-- C84: "each copy can be consumed on its own" is false: as long as nobody reads a copy `k` that was asked for without buffer, no copy served
after it gets any element, and no copy served before it more than one, whatever the source, the other capacities and the schedule. -/
theorem C84_independent_refuted (hlt : src.items.length < 2 ^ 63) {m : NState (copyNet src channels terms)} (hr : NReach _ m) {q k : Nat}
    (hq : q < channels.length) (hk : k < channels.length) (hcap : (channels[k]).2 = 0) (hno : (m.hist (k + 2)).ins 0 = []) :
    ((m.hist (q + 2)).ins 0).length ≤ if q < k then 1 else 0 := by
  have hp := copyNet_program src channels terms
  have hf := copyNet_few (K := K) src channels terms hlt
  have hn : 1 < (copyNet src channels terms).n := by show _ < channels.length + 2; omega
  have h := C84_ahead hlt hr hq hk
  have hch := (hp.inv hf hr).chan 1 hn q (by rw [copyNet_nout]; exact hq)
  have e1 : (copyNet src channels terms).dst 1 q = (q + 2, 0) := rfl
  rw [e1] at hch
  rw [hch, List.length_append, hcap, hno] at h
  simpa using Nat.le_trans (Nat.le_add_right _ _) h

/-- C84, exactly: when the consumers of the copies `S` have stopped and nobody else can go on, either every copy has been sent the whole stream, or
one of the stopped consumers, `k`, has left its channel full, and then every copy has been sent the elements that `k` has received, those in its
channel, and one more if Copy serves it before `k`. The consumers that have not stopped have received all that their copies were sent. -/
theorem C84_exact (hlt : src.items.length < 2 ^ 63) (S : Nat → Prop) {m : NState (copyNet src channels terms)} (hr : NReach _ m)
    (hstop : OnlyMoves (consumers S) m) :
    ((∀ q < channels.length, (m.hist 1).outs q = src.items) ∨
      ∃ (k : Nat) (hk : k < channels.length), S k ∧ ((m.hist (k + 2)).ins 0).length + (channels[k]).2 < src.items.length ∧
        ∀ q < channels.length, (m.hist 1).outs q =
          src.items.take (((m.hist (k + 2)).ins 0).length + (channels[k]).2 + if q < k then 1 else 0)) ∧
    ∀ q < channels.length, ¬ S q → (m.hist (q + 2)).ins 0 = (m.hist 1).outs q := by
  have hp := copyNet_program src channels terms
  have hf := copyNet_few (K := K) src channels terms hlt
  have hinv := hp.inv hf hr
  have h0 : 0 < (copyNet src channels terms).n := by show _ < channels.length + 2; omega
  have h1 : 1 < (copyNet src channels terms).n := by show _ < channels.length + 2; omega
  have h2 : ∀ q < channels.length, q + 2 < (copyNet src channels terms).n := by intro q hq; show _ < channels.length + 2; omega
  have hci := copyNet_copyInv hlt hr
  have hU0 : ¬ consumers S 0 := by rintro ⟨q, -, e⟩; omega
  have hU1 : ¬ consumers S 1 := by rintro ⟨q, -, e⟩; omega
  have hno : ∀ {i : Nat} {l : Lbl (Val α) (Ev α K)} {s' : ((copyNet src channels terms).comp i).σ} {m' : NState (copyNet src channels terms)},
      ¬ consumers S i → NStep m m' → m'.st = (m.move i l s').st → m'.hist = (m.move i l s').hist → False := by
    intro i l s' m' hi hs e1 e2
    obtain ⟨u, hu, hm⟩ := hstop _ hs
    have hne : u ≠ i := fun e => hi (e ▸ hu)
    exact hm (by rw [e1, e2]; exact not_moved m hne l s')
  have hno2 : ∀ {i j : Nat} {l l' : Lbl (Val α) (Ev α K)} {s' : ((copyNet src channels terms).comp i).σ} {s'' : ((copyNet src channels terms).comp j).σ},
      ¬ consumers S i → ¬ consumers S j → ¬ NStep m ((m.move i l s').move j l' s'') := by
    intro i j l l' s' s'' hi hj hs
    obtain ⟨u, hu, hm⟩ := hstop _ hs
    have n1 : u ≠ i := fun e => hi (e ▸ hu)
    have n2 : u ≠ j := fun e => hj (e ▸ hu)
    have e1 := not_moved (m.move i l s') n2 l' s''
    have e2 := not_moved m n1 l s'
    exact hm ⟨e1.1.trans e2.1, e1.2.trans e2.2⟩
  -- a terminal operation that goes on reads as long as there is something
  have hterm : ∀ q < channels.length, ¬ S q → (m.hist (q + 2)).eof 0 = false → Ready ((copyNet src channels terms).comp (q + 2)) (m.st (q + 2)) 0 := by
    intro q hq hS heof
    have hnin : ((copyNet src channels terms).comp (q + 2)).nin = 1 := by rw [copyNet_term]; exact (term_shape _).1
    have hnout : ((copyNet src channels terms).comp (q + 2)).nout = 0 := by rw [copyNet_term]; exact (term_shape _).2
    refine ((hp.good _ (h2 q hq)).accept _ _ (hinv.reach _ (h2 q hq)) (hf m hr _ (h2 q hq)) 0 (by omega) heof).resolve_right ?_
    rintro ⟨l, s', hst, hl⟩
    have hleg := (hp.good _ (h2 q hq)).safe _ _ _ _ (hinv.reach _ (h2 q hq)) (hf m hr _ (h2 q hq)) hst
    cases l with
    | recv p v => simp [Lbl.isOut] at hl
    | eof p => simp [Lbl.isOut] at hl
    | log e => exact hno (consumers_two hS) (.log m _ e s' hinv.ok (h2 q hq) hst) rfl rfl
    | tau => exact hno (consumers_two hS) (.tau m _ s' hinv.ok (h2 q hq) hst) rfl rfl
    | close p => have := hleg.1; omega
    | send p v => have := hleg.1; omega
  have hchan : ∀ q < channels.length, (m.hist 1).outs q = (m.hist (q + 2)).ins 0 ++ m.buf 1 q := fun q hq =>
    hinv.chan 1 h1 q (by rw [copyNet_nout]; exact hq)
  have hsrc : ∀ q, (copyNet src channels terms).src (q + 2) 0 = (1, q) := by
    intro q
    show (if q + 2 = 1 then (0, 0) else (1, q + 2 - 2)) = _
    rw [if_neg (by omega), Nat.add_sub_cancel]
  have hread : ∀ q < channels.length, ¬ S q → m.buf 1 q = [] := by
    intro q hq hS
    cases heof : (m.hist (q + 2)).eof 0 with
    | true => exact (hinv.eofs 1 h1 q (by rw [copyNet_nout]; exact hq) heof).2
    | false =>
      cases hb : m.buf 1 q with
      | nil => rfl
      | cons w ws =>
        obtain ⟨s'', hs''⟩ := (hterm q hq hS heof).1 w
        exact (hno (l := .recv 0 w) (s' := s'') (consumers_two hS) (.recv m (q + 2) 0 w ws s'' hinv.ok (h2 q hq) hs'' (by rw [hsrc]; exact hb)) rfl rfl).elim
  refine ⟨?_, fun q hq hS => by rw [hchan q hq, hread q hq hS, List.append_nil]⟩
  have hok : m.crashed = false := hinv.ok
  have hstep : ∀ (s : CopySt α) l s', SeqStep (copyNext (K := K) channels.length) s l s' → (copyS (K := K) (channels.map Prod.snd)).comp.step s l s' := by
    intro s l s' h
    show SeqStep (copyNext (channels.map Prod.snd).length) s l s'
    rw [List.length_map]; exact h
  have hcl1 : ∀ q < channels.length, m.closed 1 q = (m.hist 1).closed q := fun q hq => hinv.cl 1 h1 q (by rw [copyNet_nout]; exact hq)
  -- the source has been read to its end, if Copy is not sending
  have hcase : (∃ v i, m.st 1 = (CopySt.send v i : CopySt α) ∧ i < channels.length) ∨ m.st 1 = (CopySt.done : CopySt α) := by
    have hst : ∀ s : CopySt α, m.st 1 = s → (∃ v i, m.st 1 = (CopySt.send v i : CopySt α) ∧ i < channels.length) ∨ m.st 1 = (CopySt.done : CopySt α) := by
      intro s hs
      rw [hs] at hci
      cases s with
      | done => exact .inr hs
      | send v i =>
        by_cases hi : i < channels.length
        · exact .inl ⟨v, i, hs, hi⟩
        · exact (hno hU1 (.tau m 1 CopySt.loop hok h1 (by rw [hs]; exact hstep _ _ _ (.tau (by rw [copyNext, if_neg hi])))) rfl rfl).elim
      | closing i =>
        by_cases hi : i < channels.length
        · exact (hno (i := 1) (l := .close i) (s' := CopySt.closing (i + 1)) hU1 (.close m 1 i (CopySt.closing (i + 1)) hok h1
            (by rw [hs]; exact hstep _ _ _ (.close (by rw [copyNext, if_pos hi]))) (by rw [hcl1 i hi, hci.2.1 i hi]; simp)) rfl rfl).elim
        · exact (hno hU1 (.tau m 1 CopySt.done hok h1 (by rw [hs]; exact hstep _ _ _ (.tau (by rw [copyNext, if_neg hi])))) rfl rfl).elim
      | loop =>
        exfalso
        have hrecv : ∀ v, (copyS (K := K) (channels.map Prod.snd)).comp.step CopySt.loop (.recv 0 v) (CopySt.send v 0) := fun v =>
          hstep _ _ _ (SeqStep.recv (next := copyNext (K := K) channels.length) (s := (CopySt.loop : CopySt α)) v rfl)
        have heofs : (copyS (α := α) (K := K) (channels.map Prod.snd)).comp.step CopySt.loop (.eof 0) (CopySt.closing 0) :=
          hstep _ _ _ (SeqStep.eof (next := copyNext (K := K) channels.length) (s := (CopySt.loop : CopySt α)) rfl)
        have hsrc0 : (copyNet src channels terms).src 1 0 = (0, 0) := rfl
        have hs0 : (copyNet src channels terms).comp 0 = src.comp := rfl
        have hnin : ((copyNet src channels terms).comp 0).nin = 0 := (source_shape src).1
        have hnout : ((copyNet src channels terms).comp 0).nout = 1 := (source_shape src).2
        cases hb : m.buf 0 0 with
        | cons w ws =>
          exact hno (i := 1) (l := .recv 0 w) (s' := CopySt.send w 0) hU1 (.recv m 1 0 w ws (CopySt.send w 0) hok h1 (by rw [hs]; exact hrecv w)
            (by rw [hsrc0]; exact hb)) rfl rfl
        | nil =>
          by_cases hd : ((copyNet src channels terms).comp 0).done (m.st 0)
          · have hc := ((hp.good 0 h0).fin _ _ (hinv.reach 0 h0) (hf m hr 0 h0) hd).2.1 0 (by omega)
            rw [← hinv.cl 0 h0 0 (by omega)] at hc
            exact hno (i := 1) (l := .eof 0) (s' := CopySt.closing 0) hU1 (.eof m 1 0 (CopySt.closing 0) hok h1 (by rw [hs]; exact heofs) (by rw [hsrc0]; exact hb)
              (by rw [hsrc0]; exact hc)) rfl rfl
          · rcases (hp.good 0 h0).live _ _ (hinv.reach 0 h0) (hf m hr 0 h0) hd with ⟨l, s', hst, hl⟩ | ⟨p, hp', -⟩
            · have hleg := (hp.good 0 h0).safe _ _ _ _ (hinv.reach 0 h0) (hf m hr 0 h0) hst
              cases l with
              | recv p v => simp [Lbl.isOut] at hl
              | eof p => simp [Lbl.isOut] at hl
              | log e => exact hno hU0 (.log m 0 e s' hok h0 hst) rfl rfl
              | tau => exact hno hU0 (.tau m 0 s' hok h0 hst) rfl rfl
              | close q =>
                exact hno (l := .close q) (s' := s') hU0 (.close m 0 q s' hok h0 hst (by rw [hinv.cl 0 h0 q hleg.1]; exact hleg.2)) rfl rfl
              | send q v =>
                have hq0 : q = 0 := by have := hleg.1; omega
                subst hq0
                exact hno2 (i := 0) (j := 1) (l := .send 0 v) (l' := .recv 0 v) (s' := s') (s'' := CopySt.send v 0) hU0 hU1
                  (.meet m 0 0 v s' (CopySt.send v 0) hok h0 hst (by rw [hinv.cl 0 h0 0 hleg.1]; exact hleg.2) hb (by show 0 ≠ 1; omega) h1
                    (by show (copyS (K := K) (channels.map Prod.snd)).comp.step (m.st 1) (.recv 0 v) (CopySt.send v 0); rw [hs]; exact hrecv v))
            · omega
    exact hst _ rfl
  rcases hcase with ⟨v, i, hs, hi⟩ | hs
  · -- the channel of `i` is full and nobody reads it
    right
    rw [hs] at hci
    obtain ⟨heof, hncl, -, pre, hins, houts⟩ := hci
    have hsend : (copyS (K := K) (channels.map Prod.snd)).comp.step (m.st 1) (.send i v) (CopySt.send v (i + 1)) := by
      rw [hs]; exact hstep _ _ _ (.send (by rw [copyNext, if_pos hi]))
    have hnc : m.closed 1 i = false := by rw [hcl1 i hi]; exact hncl i hi
    have hS : S i := by
      by_contra hS
      have he : (m.hist (i + 2)).eof 0 = false := by
        cases e : (m.hist (i + 2)).eof 0 with
        | false => rfl
        | true =>
          have := (hinv.eofs 1 h1 i (by rw [copyNet_nout]; exact hi) e).1
          rw [hnc] at this; simp at this
      obtain ⟨s'', hs''⟩ := (hterm i hi hS he).1 v
      exact hno2 (i := 1) (j := i + 2) (l := .send i v) (l' := .recv 0 v) (s' := CopySt.send v (i + 1)) (s'' := s'') hU1 (consumers_two hS)
        (.meet m 1 i v (CopySt.send v (i + 1)) s'' hok h1 hsend hnc (hread i hi hS) (by show 1 ≠ i + 2; omega) (h2 i hi) hs'')
    have hcap : ((copyNet src channels terms).comp 1).cap (m.st 1) i = (channels[i]).2 := by
      show (channels.map Prod.snd).getD i 0 = _
      simp [List.getD_eq_getElem?_getD, List.getElem?_eq_getElem hi]
    have hfull : (channels[i]).2 ≤ (m.buf 1 i).length := by
      by_contra hlt'
      exact hno (i := 1) (l := .send i v) (s' := CopySt.send v (i + 1)) hU1 (.send m 1 i v (CopySt.send v (i + 1)) hok h1 hsend hnc (by rw [hcap]; omega)) rfl rfl
    have hle := C84_ahead hlt hr hi hi
    rw [if_neg (by omega)] at hle
    have hlen : pre.length = ((m.hist (i + 2)).ins 0).length + (channels[i]).2 := by
      have e := houts i hi
      rw [if_neg (by omega)] at e
      rw [hchan i hi, List.length_append] at hle
      rw [← e, hchan i hi, List.length_append]
      omega
    have hpi : pre ++ [v] <+: src.items := by
      obtain ⟨m', hs', hd⟩ := reaches_end hp.wf hf hp.good hr
      obtain ⟨f1, f2⟩ := final hp.wf hf hp.good (reach_steps hr hs') hd
      have g0 := f1 0 h0
      have hr' := reach_steps hr hs'
      have hch := hinv.chan 0 h0 0 (by have := (source_shape (K := K) src).2; show 0 < (src.comp : Comp (Val α) (Ev α K)).nout; omega)
      have e1 : (copyNet src channels terms).dst 0 0 = (1, 0) := rfl
      rw [e1] at hch
      rw [← hins, ← show (m'.hist 0).outs 0 = src.items from g0.1]
      exact List.IsPrefix.trans ⟨_, hch.symm⟩ (hist_steps hs' 0 0).1
    refine ⟨i, hi, hS, ?_, ?_⟩
    · have := hpi.length_le
      rw [List.length_append, List.length_singleton] at this
      omega
    · intro q hq
      rw [houts q hq, ← hlen, hins]
      split
      · have e := List.prefix_iff_eq_take.mp hpi
        rw [List.length_append, List.length_singleton] at e
        exact e
      · have e := List.prefix_iff_eq_take.mp ((List.prefix_append pre [v]).trans hpi)
        exact e
  · -- Copy has got to its end
    left
    have hd1 : ((copyNet src channels terms).comp 1).done (m.st 1) := by rw [hs]; exact rfl
    rw [hs] at hci
    intro q hq
    have hB := copyNet_bounded (K := K) src channels terms hlt
    have g1 := stopped_final hp.wf hB hp.good hr h1 hd1
    have hin0 : (m.hist 1).eof 0 = true := hci.1
    have hno0 : 0 < ((copyNet src channels terms).comp 0).nout := by
      have := (source_shape (K := K) src).2; show 0 < (src.comp : Comp (Val α) (Ev α K)).nout; omega
    have hc0 := (hinv.eofs 0 h0 0 hno0 hin0).1
    obtain ⟨m', hs', hd⟩ := reaches_end hp.wf hf hp.good hr
    have e0 := (closed_steps hs' hc0).2
    obtain ⟨f1, f2⟩ := final hp.wf hf hp.good (reach_steps hr hs') hd
    have g0 := f1 0 h0
    rw [hci.2.2.1 q hq, show (m.hist 1).ins 0 = (m.hist 0).outs 0 from g1.2 0 (by show 0 < 1; omega), ← e0]
    exact g0.1

/-- The second copy of `1, 2, 3` is never read; its channel has no buffer. -/
theorem demo_abandoned : ∃ m : NState (copyNet (K := Nat) (.gen [.atom 1, .atom 2, .atom 3]) [("a", 2), ("b", 0)] fun _ => .count),
    NReach _ m ∧ OnlyMoves (consumers (· = 1)) m ∧ (m.hist 3).ins 0 = [] := by
  have hp := copyNet_program (K := Nat) (.gen [.atom 1, .atom 2, .atom 3]) [("a", 2), ("b", 0)] fun _ => .count
  obtain ⟨m, hs, hr, hm⟩ := stops hp.wf (copyNet_few _ _ _ (by decide)) hp.good (consumers (· = 1)) .init
  refine ⟨m, hr, hm, ?_⟩
  have : ∀ m', Relation.ReflTransGen (fun x y => NStep x y ∧ ∀ u, consumers (· = 1) u → ¬ Moved x y u) (NState.init (copyNet (K := Nat) (.gen [.atom 1, .atom 2, .atom 3])
      [("a", 2), ("b", 0)] fun _ => .count)) m' → (m'.hist 3).ins 0 = [] := by
    intro m' h
    induction h with
    | refl => rfl
    | tail _ h ih =>
      have := h.2 3 ⟨1, rfl, rfl⟩
      unfold Moved at this
      rw [not_not] at this
      rw [this.2]; exact ih
  exact this m hs

example := demo_abandoned.imp fun _ h => C84_ahead (by decide) h.1 (q := 0) (k := 1) (by decide) (by decide)
example := demo_abandoned.imp fun _ h => C84_independent_refuted (by decide) h.1 (q := 0) (k := 1) (by decide) (by decide) rfl h.2.2
example := demo_abandoned.imp fun _ h => C84_exact (by decide) (· = 1) h.1 h.2.1

/-- There Copy stops at the channel without buffer: the first copy gets one element of three. -/
theorem C84_example : ∃ m : NState (copyNet (K := Nat) (.gen [.atom 1, .atom 2, .atom 3]) [("a", 2), ("b", 0)] fun _ => .count),
    NReach _ m ∧ OnlyMoves (consumers (· = 1)) m ∧ (m.hist 2).ins 0 = [.atom 1] := by
  obtain ⟨m, h1, h2, h3⟩ := demo_abandoned
  refine ⟨m, h1, h2, ?_⟩
  obtain ⟨hx, hy⟩ := C84_exact (by decide) (· = 1) h1 h2
  have hle := C84_independent_refuted (by decide) h1 (q := 0) (k := 1) (by decide) (by decide) rfl h3
  have e := hy 0 (by decide) (by decide)
  rcases hx with hx | ⟨k, hk, rfl, hk', hx⟩
  · rw [e, hx 0 (by decide)] at hle
    exact absurd hle (by decide)
  · rw [e, hx 0 (by decide), h3]
    rfl

end Verif.XStream

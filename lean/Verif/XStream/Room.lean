import Verif.XStream.Props
/-!
# C90: how far a stream runs ahead of its consumer

`Node.room` says how many values each kind of stream holds for a consumer that is slower than the producer.
-/
namespace Verif.XStream
open Verif.Go Verif.Conc.Net

variable {α K : Type}

/-- How many values an operation that has received `k` values holds in its output channel: `Buffer(n)` holds `n` (none for negative `n`), the
concurrent operations as many as they have workers, `Reverse` and `Sort` everything, the other operations none. -/
def Op.room : Op α K → (k : Nat) → Nat
  | .buffer n, _ => n.toNat
  | .reverse, k => k
  | .sort _ _, k => k
  | .walk _ opts, _ => (loadOptions opts).toNat
  | .filter _ opts, _ => (loadOptions opts).toNat
  | .map _ opts, _ => (loadOptions opts).toNat
  | .flatMap _ opts, _ => (loadOptions opts).toNat
  | _, _ => 0

/-- The same for output `q` of a node: `Of` holds all its elements, `From` none, a given channel its capacity, a copy the capacity asked for,
`MapStream` as many as it has workers. -/
def Node.room : Node α K → (q k : Nat) → Nat
  | .source (.of items), _, _ => items.length
  | .source (.gen _), _, _ => 0
  | .source (.chan cap _), _, _ => cap
  | .op o, _, k => o.room k
  | .concat _, _, _ => 0
  | .copy channels, q, _ => (channels[q]?.map Prod.snd).getD 0
  | .mapStream _ _ opts, _, _ | .mapStreamCtx _ _ opts, _, _ => (XMapReduce.loadOption opts).toNat
  | .term _, _, _ => 0

theorem Node.room_mono (nd : Node α K) (q : Nat) {k k' : Nat} (h : k ≤ k') : nd.room q k ≤ nd.room q k' := by
  cases nd with
  | source s => cases s <;> exact Nat.le_refl _
  | op o => cases o <;> simp [Node.room, Op.room, h]
  | _ => exact Nat.le_refl _

/-- Where a collecting operation is, and what it has received. -/
def CollectAt (c : List (Val α) → Nat) (g : List (Val α) → List (Val α)) (ins : List (Val α)) : CollectSt α → Prop
  | .loop items => ins = items
  | .sending n _ => n = c (g ins)
  | .done => True

theorem collect_step {c : List (Val α) → Nat} {g : List (Val α) → List (Val α)} {s s' : CollectSt α} {h : Hist (Val α) (Ev α K)} {l : Lbl (Val α) (Ev α K)}
    (ih : CollectAt c g (h.ins 0) s) (hs : SeqStep (collectNext c g) s l s') : CollectAt c g ((h.add l).ins 0) s' := by
  cases s with
  | loop items =>
    replace ih : h.ins 0 = items := ih
    cases hs <;> rename_i hn <;> simp only [collectNext, reduceCtorEq, Cmd.recv.injEq] at hn
    all_goals
      obtain ⟨rfl, rfl⟩ := hn
      simp [Hist.add, ih, CollectAt]
  | sending n rest =>
    cases rest <;> cases hs <;> rename_i hn <;> simp only [collectNext, reduceCtorEq, Cmd.send.injEq, Cmd.close.injEq] at hn
    · obtain ⟨rfl, rfl⟩ := hn; trivial
    · obtain ⟨rfl, rfl, rfl⟩ := hn; exact ih
  | done => cases hs <;> rename_i hn <;> simp [collectNext] at hn

theorem collect_state {c : List (Val α) → Nat} {g : List (Val α) → List (Val α)} {s : (collectS (K := K) c g).comp.σ} {h : Hist (Val α) (Ev α K)}
    (hr : CReach (collectS c g).comp s h) : CollectAt c g (h.ins 0) s := by
  induction hr with
  | init => rfl
  | step hr hs ih => exact collect_step ih hs

theorem collect_cap {c : List (Val α) → Nat} {g : List (Val α) → List (Val α)} {s s' : CollectSt α} {h : Hist (Val α) (Ev α K)} {q : Nat} {v : Val α}
    (hr : CReach (collectS c g).comp s h) (hs : (collectS (K := K) c g).comp.step s (.send q v) s') :
    (collectS (K := K) c g).comp.cap s q = c (g (h.ins 0)) := by
  have hst := collect_state hr
  replace hs : SeqStep (collectNext c g) s (.send q v) s' := hs
  cases s with
  | loop items => cases hs with | send hn => simp [collectNext] at hn
  | sending n rest => exact hst
  | done => cases hs with | send hn => simp [collectNext] at hn

theorem swapLoop_length (l : List (Val α)) (n : Nat) : (swapLoop l n).length = l.length := by
  induction n generalizing l with
  | zero => rfl
  | succ n ih => simp [swapLoop, ih]

theorem node_cap [DecidableEq K] {nd : Node α K} {C : Comp (Val α) (Ev α K)} (hb : nd.Builds C) (hv : nd.Valid) {s s' : C.σ} {h : Hist (Val α) (Ev α K)}
    {q : Nat} {v : Val α} (hr : CReach C s h) (hs : C.step s (.send q v) s') (hq : q < C.nout) : C.cap s q = nd.room q (h.ins 0).length := by
  cases nd with
  | source src => subst hb; cases src <;> rfl
  | concat n => subst hb; rfl
  | mapStream items f opts => subst hb; rfl
  | mapStreamCtx items f opts => subst hb; rfl
  | copy channels =>
    subst hb
    show (channels.map Prod.snd).getD q 0 = _
    simp [Node.room, List.getD_eq_getElem?_getD]
  | term t => subst hb; cases t <;> simp [Term.comp, Seq.comp, foreachS, doneS, orderedS, countS, machS, findFirstS, findLastS, groupByS, foldS] at hq
  | op o =>
    have collect : ∀ {c : List (Val α) → Nat} {g : List (Val α) → List (Val α)} {n : Nat}, C = (collectS c g).comp → c (g (h.ins 0)) = n → C.cap s q = n := by
      intro c g n e e'
      subst e
      rw [collect_cap hr hs, e']
    simp only [Node.Builds] at hb
    cases o with
    | buffer n =>
      simp only [Op.build, Option.some.injEq, List.cons.injEq, and_true] at hb; subst hb
      show (if n < 0 then 0 else n).toNat = n.toNat
      split <;> omega
    | reverse =>
      simp only [Op.build, Option.some.injEq, List.cons.injEq, and_true] at hb
      exact collect hb.symm (swapLoop_length _ _)
    | sort ss less =>
      simp only [Op.build, Option.some.injEq, List.cons.injEq, and_true] at hb
      exact collect hb.symm (hv _ _).1.length_eq
    | group f order =>
      simp only [Op.build, Option.some.injEq, List.cons.injEq, and_true] at hb
      exact collect hb.symm rfl
    | _ =>
      simp only [Op.build] at hb
      repeat' split at hb
      all_goals first
        | (simp only [Option.some.injEq, List.cons.injEq, and_true] at hb; subst hb; rfl)
        | simp at hb

section
variable {A L : Type} {N : Net A L}

/-- What has been received stays received. -/
theorem ins_step {m m' : NState N} (hs : NStep m m') (i p : Nat) : ((m.hist i).ins p).length ≤ ((m'.hist i).ins p).length := by
  have add : ∀ (h : Hist A L) (l : Lbl A L), (h.ins p).length ≤ ((h.add l).ins p).length := by
    intro h l
    cases l <;> simp only [Hist.add, Nat.le_refl]
    rename_i p' v
    by_cases e : p = p'
    · subst e; simp
    · simp [upd_of_ne _ _ e]
  have move : ∀ (m₀ : NState N) (j : Nat) (l : Lbl A L) (s' : (N.comp j).σ), ((m₀.hist i).ins p).length ≤ (((m₀.move j l s').hist i).ins p).length := by
    intro m₀ j l s'
    by_cases e : i = j
    · subst e; simp only [NState.move, upd_self]; exact add _ l
    · simp only [NState.move, upd_of_ne _ _ e]; exact Nat.le_refl _
  cases hs with
  | log j e s' _ hj hst => exact move m j _ s'
  | tau j s' _ hj hst => exact move m j _ s'
  | send j q' v s' _ hj hst _ _ => exact move m j (.send q' v) s'
  | meet j q' v s' s'' _ hj hst _ _ _ _ hst' => exact Nat.le_trans (move m j (.send q' v) s') (move (m.move j (.send q' v) s') _ (.recv (N.dst j q').2 v) s'')
  | sendPanic j q' v s' _ hj hst _ => exact Nat.le_refl _
  | close j q' s' _ hj hst _ => exact move m j (.close q') s'
  | closePanic j q' s' _ hj hst _ => exact Nat.le_refl _
  | recv j p v vs s' _ hj hst _ => exact move m j (.recv p v) s'
  | eof j p s' _ hj hst _ _ => exact move m j (.eof p) s'

end

variable [DecidableEq K] {N : Net (Val α) (Ev α K)} {node : Nat → Node α K}

theorem buf_room (hp : IsProgram N node) (hf : FewValues N) {m : NState N} (hr : NReach N m) {i q : Nat} (hi : i < N.n) (hq : q < (N.comp i).nout) :
    (m.buf i q).length ≤ (node i).room q ((m.hist i).ins 0).length := by
  induction hr with
  | init => simp [NState.init]
  | step hm hs ih =>
    rename_i m m'
    have hmono := (node i).room_mono q (ins_step hs i 0)
    have hsame : ∀ b : Nat → Nat → List (Val α), (b i q).length ≤ (m.buf i q).length → (b i q).length ≤ (node i).room q ((m'.hist i).ins 0).length :=
      fun b hb => by omega
    cases hs with
    | send j q' v s' _ hj hst hc hlt =>
      by_cases e : i = j ∧ q = q'
      · obtain ⟨rfl, rfl⟩ := e
        have hcap := node_cap (hp.built i hi) (hp.valid i hi) ((hp.inv hf hm).reach i hi) hst hq
        rw [hcap] at hlt
        simp only [upd2, and_self, if_true, List.length_append, List.length_singleton] at *
        omega
      · exact hsame (upd2 m.buf j q' (m.buf j q' ++ [v])) (by simp only [upd2, if_neg e]; exact Nat.le_refl _)
    | recv j p v vs s' _ hj hst hb =>
      refine hsame (upd2 m.buf (N.src j p).1 (N.src j p).2 vs) ?_
      simp only [upd2]
      split
      · next e => rw [e.1, e.2, hb]; simp
      · exact Nat.le_refl _
    | _ => exact hsame m.buf (Nat.le_refl _)

/-- C90: at every moment a stream has sent at most `room` values more than its consumer has received. -/
theorem C90_run_ahead (hp : IsProgram N node) (hf : FewValues N) {m : NState N} (hr : NReach N m) {i q : Nat} (hi : i < N.n) (hq : q < (N.comp i).nout) :
    ((m.hist i).outs q).length ≤ ((m.hist (N.dst i q).1).ins (N.dst i q).2).length + (node i).room q ((m.hist i).ins 0).length := by
  rw [(hp.inv hf hr).chan i hi q hq, List.length_append]
  have := buf_room hp hf hr hi hq
  omega

/-- C90: as long as it is fewer, a producer that has a value to send need not wait. -/
theorem C90_no_wait (hp : IsProgram N node) (hf : FewValues N) {m : NState N} (hr : NReach N m) {i q : Nat} (hi : i < N.n) {v : Val α} {s' : (N.comp i).σ}
    (hs : (N.comp i).step (m.st i) (.send q v) s')
    (hlt : ((m.hist i).outs q).length < ((m.hist (N.dst i q).1).ins (N.dst i q).2).length + (node i).room q ((m.hist i).ins 0).length) :
    ∃ m', NStep m m' ∧ m'.st i = s' ∧ (m'.hist i).outs q = (m.hist i).outs q ++ [v] := by
  have hinv := hp.inv hf hr
  obtain ⟨hq, hcl⟩ := (hp.good i hi).safe _ _ _ _ (hinv.reach i hi) (hf m hr i hi) hs
  rw [hinv.chan i hi q hq, List.length_append] at hlt
  refine ⟨_, .send m i q v s' hinv.ok hi hs (by rw [hinv.cl i hi q hq]; exact hcl) ?_, ?_, ?_⟩
  · rw [node_cap (hp.built i hi) (hp.valid i hi) (hinv.reach i hi) hs hq]; omega
  · simp [NState.move]
  · simp [NState.move, Hist.add]

/-- `Of(1, 2, 3)` sends its first element although nobody has received anything yet. -/
theorem demo_first : ∃ m, NReach demoNet m ∧ m.st 0 = SendSt.loop [.atom 2, .atom 3] ∧ (m.hist 0).outs 0 = [.atom 1] :=
  have ⟨m, h1, h2, h3⟩ := C90_no_wait demo_is demo_few .init (i := 0) (q := 0) (by decide) (v := .atom 1) (s' := SendSt.loop [.atom 2, .atom 3])
    (.send rfl) (by decide)
  ⟨m, .step .init h1, h2, h3⟩

example := demo_first.imp fun _ h => C90_run_ahead demo_is demo_few h.1 (i := 0) (q := 0) (by decide) (by decide)

end Verif.XStream

import Verif.XSync.MapConcSteps
/-! # Simulation of the concurrent map: steps with the lock -/
namespace Verif.XSync.MapConc
open Verif.Conc Verif.Go

variable {K V : Type} [DecidableEq K] [DecidableEq V]
variable {g g' : G K V} {v : Vw K V} {gh : Gh K V} {i : Nat} {op : Op K V} {x : Pt K V ⊕ Res K V} {c : Nat}

omit [DecidableEq V] in
theorem a_setDirty {d : GMap K Nat} (hd : g.dirty = some d) (k : K) (e : Nat) :
    G.a { g with dirty := some (d.set k e) } = { g.a with dt := fun k' => if k' = k then some e else g.a.dt k' } := by
  have h1 : (G.a { g with dirty := some (d.set k e) }).dt = fun k' => if k' = k then some e else g.a.dt k' := by
    funext k'
    simp [G.a, G.dirtyGet, hd, GMap.get_set]
  have h2 : (G.a { g with dirty := some (d.set k e) }).has = g.a.has := by simp [G.a, hd]
  rw [← h1]
  simp only [G.a] at h2 ⊢
  rw [← h2]

omit [DecidableEq V] in
theorem a_delDirty (k : K) :
    G.a { g with dirty := g.dirty.map (·.del k) } = { g.a with dt := fun k' => if k' = k then none else g.a.dt k' } := by
  have h1 : (G.a { g with dirty := g.dirty.map (·.del k) }).dt = fun k' => if k' = k then none else g.a.dt k' := by
    funext k'
    simp only [G.a, G.dirtyGet]
    cases hd : g.dirty with
    | none => simp
    | some d => simp [GMap.get_del]
  have h2 : (G.a { g with dirty := g.dirty.map (·.del k) }).has = g.a.has := by simp [G.a]
  rw [← h1]
  simp only [G.a] at h2 ⊢
  rw [← h2]

omit [DecidableEq V] in
theorem has_dirty (h : g.a.has = true) : ∃ d, g.dirty = some d := by
  simp only [G.a, Option.isSome_iff_exists] at h
  exact h

theorem step_lock (hg : GReach mapSpec gh) (hI : I g v gh) (hv : v i = some (op, .inl .lock))
    (h : step g i op .lock c = some (g', x)) : Out g v gh i op g' x := by
  have hst : gh.st i = .invoked op := hI.floc i op _ hv
  simp only [step] at h
  split at h
  · simp at h
  · rename_i hm
    simp only [Option.not_isSome_iff_eq_none] at hm
    simp only [Option.some.injEq, Prod.mk.injEq] at h
    obtain ⟨rfl, rfl⟩ := h
    left
    refine frame_core (b := true) (d := none) hI hv (quiet_frame hg hI rfl (hI.keep rfl rfl rfl rfl) (by simp) ⟨hst, by simp [LLoc]⟩
      (by simp [delX, Pt.delE])) ?_ (fun _ => ⟨rfl, rfl⟩) (Or.inr (Or.inl ⟨rfl, rfl, hm, rfl⟩))
    have e1 : modeAt g.mu v = none := by simp [modeAt, hm]
    have e2 : modeAt (some i) (upd v i (some (op, .inl .locked))) = none := by simp [modeAt, Pt.mode]
    rw [e1]
    simp only [e2]
    exact .same _ _

theorem step_unlock {k : Cont K V} (hg : GReach mapSpec gh) (hI : I g v gh) (hv : v i = some (op, .inl (.unlock k)))
    (h : step g i op (.unlock k) c = some (g', x)) : Out g v gh i op g' x := by
  have hf := hI.floc i op _ hv
  simp only [step, Option.some.injEq, Prod.mk.injEq] at h
  obtain ⟨rfl, rfl⟩ := h
  left
  refine frame_locked (b := true) (d := none) hI hv (quiet_frame hg hI rfl (hI.keep rfl rfl rfl rfl) (by simp) ?_ ?_) rfl ?_ ?_
  · cases k with
    | ret r => exact hf
    | eload e => exact ⟨hf, by simp [Pt.holds]⟩
    | del e => exact ⟨hf, by simp [Pt.holds]⟩
    | iter m => exact ⟨hf, by simp [Pt.holds]⟩
  · cases k <;> simp [Cont.go, delX, Pt.delE, Cont.delE]
  · cases k <;> simp [Cont.go, lockedX, Pt.holds]
  · have : modeX k.go = none := by cases k <;> rfl
    rw [this]; exact .same _ _

theorem step_miss {k : Cont K V} (hg : GReach mapSpec gh) (hI : I g v gh) (hv : v i = some (op, .inl (.miss k)))
    (h : step g i op (.miss k) c = some (g', x)) : Out g v gh i op g' x := by
  have hf := hI.floc i op _ hv
  have hl := hI.lloc i op _ hv rfl
  simp only [step, Option.some.injEq, Prod.mk.injEq] at h
  obtain ⟨rfl, rfl⟩ := h
  left
  split
  · exact frame_locked (b := true) (d := none) hI hv (quiet_frame hg hI rfl (hI.keep rfl rfl rfl rfl) (by simp) ⟨hf, by simp [LLoc]⟩
      (fun _ h _ => h)) rfl rfl (.same _ _)
  · exact frame_locked (b := true) (d := none) hI hv (quiet_frame hg hI rfl (hI.keep rfl rfl rfl rfl) (by simp) ⟨hf, fun _ => hl⟩
      (fun _ h _ => h)) rfl rfl (.same _ _)

omit [DecidableEq V] in
theorem mode_none {s : Pt K V} (hI : I g v gh) (hv : v i = some (op, .inl s)) (hs : s.holds = true) : GI g.a s.mode := by
  have := hI.gi
  have hm := (hI.mu i op s hv).1 hs
  simpa [modeAt, hm, hv] using this

omit [DecidableEq V] in
theorem a_promoted : g.promoted.a = { g.a with rd := g.a.dt, dt := fun _ => none, has := false, am := false } := by
  simp only [G.promoted, G.a]
  congr 1

theorem step_promote {k : Cont K V} (hg : GReach mapSpec gh) (hI : I g v gh) (hv : v i = some (op, .inl (.promote k)))
    (h : step g i op (.promote k) c = some (g', x)) : Out g v gh i op g' x := by
  have hf := hI.floc i op _ hv
  have hl : g.a.has = true := hI.lloc i op _ hv rfl
  have hgi : GI g.a none := mode_none hI hv rfl
  simp only [step, Option.some.injEq, Prod.mk.injEq] at h
  obtain ⟨rfl, rfl⟩ := h
  left
  have hA : AStep false none g.a none g.promoted.a none := by rw [a_promoted]; exact .promote _ hl
  have habs : g.promoted.a.abs = g.a.abs := by rw [a_promoted]; exact abs_promote hgi hl
  have hn : gh.st i ≠ .done → ∀ k, saw gh i k (g.a.abs k) := fun h => now hg hI h
  have hF' : FLoc g.promoted.a gh i op (.promote k) :=
    floc_step hA hgi rfl (.refl _ _) hn (fun h k => by rw [habs]; exact hn h k) (by simp) hf
  exact frame_locked (b := false) (d := none) hI hv (quiet_frame hg hI habs ⟨hI.fresh, hI.wfD, GMap.wf_nil⟩ (by simp) ⟨hF', by simp [LLoc]⟩
    (fun _ h _ => h)) rfl rfl hA

theorem step_rpromote (hg : GReach mapSpec gh) (hI : I g v gh) (hv : v i = some (op, .inl .rpromote))
    (h : step g i op .rpromote c = some (g', x)) : Out g v gh i op g' x := by
  obtain ⟨hst, f, rfl⟩ := hI.floc i op _ hv
  have hl : g.a.has = true := hI.lloc i _ _ hv rfl
  have hgi : GI g.a none := mode_none hI hv rfl
  simp only [step, Option.some.injEq, Prod.mk.injEq] at h
  obtain ⟨rfl, rfl⟩ := h
  left
  have hA : AStep false none g.a none g.promoted.a none := by rw [a_promoted]; exact .promote _ hl
  have habs : g.promoted.a.abs = g.a.abs := by rw [a_promoted]; exact abs_promote hgi hl
  have hn := now hg hI (i := i) (by simp [hst])
  refine frame_locked (b := false) (d := none) hI hv (quiet_frame hg hI habs ⟨hI.fresh, hI.wfD, GMap.wf_nil⟩ (by simp) ⟨?_, by simp [LLoc]⟩
    (by simp [delX, Pt.delE, Cont.delE])) rfl rfl hA
  refine ⟨hst, ⟨f, rfl⟩, hI.wfD, by simp, ?_, ?_⟩
  · intro y hy
    exact Or.inl (GMap.get_of_mem hI.wfD hy)
  · intro k
    cases hr : (g.dirty.getD []).get k with
    | some e => exact Or.inr (Or.inl (List.mem_map.2 ⟨(k, e), GMap.mem_of_get hr, rfl⟩))
    | none =>
      right; right
      have h0 : g.promoted.a.abs k = none := by
        rw [a_promoted]
        simp only [A.abs]
        have : g.a.dt k = none := hr
        rw [this]
      have := hn k
      rwa [← habs, h0] at this

theorem step_unexp {e : Nat} (hg : GReach mapSpec gh) (hI : I g v gh) (hv : v i = some (op, .inl (.unexp e)))
    (h : step g i op (.unexp e) c = some (g', x)) : Out g v gh i op g' x := by
  obtain ⟨hst, htr⟩ := hI.floc i op _ hv
  obtain ⟨k, hk, hrd⟩ := hI.lloc i op _ hv rfl
  have hgi : GI g.a none := mode_none hI hv rfl
  have hnc := not_committed hst
  have hnew : ∀ g1 : G K V, g1.a.rd k = some e → g1.a.p e ≠ .expunged → New g1 gh i op (.inl (afterUnexp op e)) := by
    intro g1 h1 h2
    cases op <;> simp only [Op.tries, Bool.false_eq_true] at htr
    · exact ⟨⟨hst, _, _, rfl⟩, fun _ => ⟨k, hk, Or.inl h1, h2⟩⟩
    all_goals exact ⟨⟨hst, rfl, by simp⟩, fun _ => ⟨k, hk, h1, h2⟩⟩
  have hloc : lockedX (.inl (afterUnexp op e) : Pt K V ⊕ Res K V) = true := by cases op <;> rfl
  have hmode : modeX (.inl (afterUnexp op e) : Pt K V ⊕ Res K V) = none := by cases op <;> rfl
  simp only [step] at h
  split at h
  · rename_i hp
    have hap : g.a.p e = .expunged := hp
    rw [hk] at h
    have hhas : g.a.has = true := by
      cases hh : g.a.has with
      | true => rfl
      | false => exact absurd hap (hgi.clean k e hh hrd)
    obtain ⟨d, hd⟩ := has_dirty hhas
    simp only [G.setDirty, G.setP, hd, Option.some.injEq, Prod.mk.injEq] at h
    obtain ⟨rfl, rfl⟩ := h
    have ha : G.a { g with p := upd g.p e .nil, dirty := some (d.set k e) } =
        { g.a with p := upd g.a.p e .nil, dt := fun k' => if k' = k then some e else g.a.dt k' } := by
      exact a_setDirty (g := { g with p := upd g.p e .nil }) hd k e
    left
    have habs : (G.a { g with p := upd g.p e .nil, dirty := some (d.set k e) }).abs = g.a.abs := by
      rw [ha]
      have h1 : A.abs { g.a with p := upd g.a.p e .nil } = g.a.abs := by
        rw [abs_setP hgi (Or.inl hrd) .nil]
        exact put_same (by rw [abs_live (Or.inl hrd), hap]; rfl)
      rw [← h1]
      refine abs_dt (a := { g.a with p := upd g.a.p e .nil }) _ g.a.has g.a.am ?_
      intro k' hk'
      have hkk : k' ≠ k := by rintro rfl; simp only [] at hk'; rw [hrd] at hk'; simp at hk'
      simp [hkk]
    refine frame_locked (b := false) (d := none) hI hv (quiet_frame hg hI habs ⟨hI.fresh, hI.wfR, ?_⟩ (by simp) (hnew _ ?_ ?_)
      (fun _ _ h => absurd h hnc)) rfl (by simp [hloc]) ?_
    · have := hI.wfD
      rw [hd] at this
      exact GMap.wf_set this k e
    · rw [ha]; exact hrd
    · rw [ha]; simp
    · rw [hmode, ha]; exact .unexp _ k e hrd hap
  · rename_i hp
    simp only [Option.some.injEq, Prod.mk.injEq] at h
    obtain ⟨rfl, rfl⟩ := h
    exact quiet_locked hg hI hv rfl hloc hmode.symm (hnew _ hrd hp) (fun _ _ h => absurd h hnc)

theorem step_storeLocked {e : Nat} (hg : GReach mapSpec gh) (hI : I g v gh) (hv : v i = some (op, .inl (.storeLocked e)))
    (h : step g i op (.storeLocked e) c = some (g', x)) : Out g v gh i op g' x := by
  obtain ⟨hst, k, w, rfl⟩ := hI.floc i op _ hv
  obtain ⟨k', hk, hlive, hne⟩ := hI.lloc i _ _ hv rfl
  simp only [Op.key?, Option.some.injEq] at hk
  subst hk
  have hgi : GI g.a none := mode_none hI hv rfl
  simp only [step, Option.some.injEq, Prod.mk.injEq] at h
  obtain ⟨rfl, rfl⟩ := h
  have habs : (g.setP e (.cell i w)).a.abs = M.put g.a.abs k (some w) := abs_setP hgi hlive (.cell i w)
  have hsp : mapSpec.step gh.cur (.store k w) .unit (g.setP e (.cell i w)).a.abs := by rw [habs, hI.cur]; exact .store _ _ _
  right
  refine ⟨_, _, hst, hsp, ?_⟩
  have hfr : Frame g gh i (.store k w) (.storeLocked e) none (g.setP e (.cell i w)) _ (.inl (.unlock (.ret .unit))) :=
    commit_frame hg hst hsp (hI.keep rfl rfl rfl rfl) ⟨fin_commit (by simp [ResOk]), by simp [LLoc]⟩ (by simp [delX, Pt.delE, Cont.delE])
  rcases hlive with h1 | ⟨h1, h2⟩
  · exact frame_locked (b := true) hI hv hfr rfl rfl (.write _ _ k e i w h1 hne)
  · exact frame_locked (b := false) hI hv hfr rfl rfl (.writeD _ _ k e i w h1 h2)

/-! ## Building `dirty` -/

theorem step_build0 {rm : GMap K Nat} (hg : GReach mapSpec gh) (hI : I g v gh) (hv : v i = some (op, .inl (.build0 rm)))
    (h : step g i op (.build0 rm) c = some (g', x)) : Out g v gh i op g' x := by
  obtain ⟨hst, hadd⟩ := hI.floc i op _ hv
  obtain ⟨hrm, ham, k, hk, hrd⟩ := hI.lloc i _ _ hv rfl
  have hgi : GI g.a none := mode_none hI hv rfl
  have hhas : g.a.has = false := by
    cases hh : g.a.has with
    | false => rfl
    | true => have := hgi.ready rfl hh; rw [ham] at this; simp at this
  have hd : g.dirty = none := by simpa [G.a] using hhas
  simp only [step, hd, Option.some.injEq, Prod.mk.injEq] at h
  obtain ⟨rfl, rfl⟩ := h
  left
  have ha : G.a { g with dirty := some [] } = { g.a with has := true, dt := fun _ => none } := rfl
  have habs : (G.a { g with dirty := some [] }).abs = g.a.abs := by
    rw [ha]
    refine abs_dt _ true g.a.am ?_
    intro k' _
    exact ((hgi.noD hhas).2 k').symm
  refine frame_locked (b := false) (d := none) hI hv (quiet_frame hg hI habs ⟨hI.fresh, hI.wfR, GMap.wf_nil⟩ (by simp)
    ⟨⟨hst, hadd⟩, fun _ => ⟨hrm, hI.wfR, k, hk, hrd⟩⟩ (by simp [delX, Pt.delE])) rfl rfl ?_
  rw [ha]
  exact .start _ _ hhas (fun k e => (GMap.mem_iff hI.wfR).symm)

theorem step_build {rm : GMap K Nat} {todo : List (K × Nat)} (hg : GReach mapSpec gh) (hI : I g v gh)
    (hv : v i = some (op, .inl (.build rm todo))) (h : step g i op (.build rm todo) c = some (g', x)) : Out g v gh i op g' x := by
  have hf := hI.floc i op _ hv
  obtain ⟨hrm, hnd, hk⟩ := hI.lloc i _ _ hv rfl
  simp only [step] at h
  split at h
  · simp only [Option.some.injEq, Prod.mk.injEq] at h
    obtain ⟨rfl, rfl⟩ := h
    exact quiet_locked hg hI hv rfl rfl rfl ⟨hf, fun _ => ⟨hrm, hk⟩⟩ (by simp [delX, Pt.delE])
  · cases hy : todo[c % todo.length]? with
    | none => simp [hy] at h
    | some y =>
      have hperm := erase_perm hy
      simp only [hy, Option.some.injEq, Prod.mk.injEq] at h
      obtain ⟨rfl, rfl⟩ := h
      left
      exact frame_locked (b := false) (d := none) hI hv (quiet_frame hg hI rfl (hI.keep rfl rfl rfl rfl) (by simp)
        ⟨hf, fun _ => ⟨hrm, ((hperm.map (·.1)).nodup_iff).2 hnd, hk⟩⟩ (by simp [delX, Pt.delE])) rfl rfl (.perm _ _ _ (fun z => hperm.mem_iff.symm))

theorem step_buildE {rm : GMap K Nat} {rest : List (K × Nat)} {k : K} {e : Nat} (hg : GReach mapSpec gh) (hI : I g v gh)
    (hv : v i = some (op, .inl (.buildE rm rest k e))) (h : step g i op (.buildE rm rest k e) c = some (g', x)) : Out g v gh i op g' x := by
  have hf := hI.floc i op _ hv
  obtain ⟨hrm, hnd, hk⟩ := hI.lloc i _ _ hv rfl
  have hgi : GI g.a (some ((k, e) :: rest)) := mode_none hI hv rfl
  have hnd' : (rest.map (·.1)).Nodup := by simp only [List.map_cons, List.nodup_cons] at hnd; exact hnd.2
  have hnot : ∀ e', (k, e') ∉ rest := by
    simp only [List.map_cons, List.nodup_cons] at hnd
    intro e' h
    exact hnd.1 (List.mem_map.2 ⟨_, h, rfl⟩)
  have hmem : ∀ z, z ∈ (k, e) :: rest ↔ z = (k, e) ∨ z ∈ rest := by simp
  have hrd : g.a.rd k = some e := hgi.todo k e _ rfl (by simp)
  simp only [step] at h
  split at h
  · simp only [Option.some.injEq, Prod.mk.injEq] at h
    obtain ⟨rfl, rfl⟩ := h
    exact quiet_locked hg hI hv rfl rfl rfl ⟨hf, fun _ => ⟨hrm, hnd, hk⟩⟩ (by simp [delX, Pt.delE])
  · rename_i hp
    simp only [Option.some.injEq, Prod.mk.injEq] at h
    obtain ⟨rfl, rfl⟩ := h
    left
    exact frame_locked (b := false) (d := none) hI hv (quiet_frame hg hI rfl (hI.keep rfl rfl rfl rfl) (by simp)
      ⟨hf, fun _ => ⟨hrm, hnd', hk⟩⟩ (by simp [delX, Pt.delE])) rfl rfl (.skip _ k e _ _ hmem hp)
  · rename_i j w hp
    have hap : g.a.p e = .cell j w := hp
    obtain ⟨d, hd⟩ := has_dirty (hgi.building (by simp)).1
    simp only [G.setDirty, hd, Option.some.injEq, Prod.mk.injEq] at h
    obtain ⟨rfl, rfl⟩ := h
    have ha := a_setDirty hd k e
    left
    have habs : (G.a { g with dirty := some (d.set k e) }).abs = g.a.abs := by
      rw [ha]
      refine abs_dt _ g.a.has g.a.am ?_
      intro k' hk'
      have hkk : k' ≠ k := by rintro rfl; rw [hrd] at hk'; simp at hk'
      simp [hkk]
    refine frame_locked (b := false) (d := none) hI hv (quiet_frame hg hI habs ⟨hI.fresh, hI.wfR, ?_⟩ (by simp)
      ⟨hf, fun _ => ⟨hrm, hnd', hk⟩⟩ (by simp [delX, Pt.delE])) rfl rfl ?_
    · have := hI.wfD
      rw [hd] at this
      exact GMap.wf_set this k e
    · rw [ha]; exact .keep _ k e _ _ hmem hnot (by rw [hap]; simp)

theorem step_buildC {rm : GMap K Nat} {rest : List (K × Nat)} {k : K} {e : Nat} (hg : GReach mapSpec gh) (hI : I g v gh)
    (hv : v i = some (op, .inl (.buildC rm rest k e))) (h : step g i op (.buildC rm rest k e) c = some (g', x)) : Out g v gh i op g' x := by
  have hf := hI.floc i op _ hv
  obtain ⟨hrm, hnd, hk⟩ := hI.lloc i _ _ hv rfl
  have hgi : GI g.a (some ((k, e) :: rest)) := mode_none hI hv rfl
  have hnd' : (rest.map (·.1)).Nodup := by simp only [List.map_cons, List.nodup_cons] at hnd; exact hnd.2
  have hmem : ∀ z, z ∈ (k, e) :: rest ↔ z = (k, e) ∨ z ∈ rest := by simp
  have hrd : g.a.rd k = some e := hgi.todo k e _ rfl (by simp)
  have hdt : g.a.dt k = none := hgi.todoD k e _ rfl (by simp)
  simp only [step] at h
  split at h
  · rename_i hp
    have hap : g.a.p e = .nil := hp
    simp only [Option.some.injEq, Prod.mk.injEq] at h
    obtain ⟨rfl, rfl⟩ := h
    left
    have habs : (g.setP e .expunged).a.abs = g.a.abs := by
      have : (g.setP e .expunged).a.abs = M.put g.a.abs k none := abs_setP hgi (Or.inl hrd) .expunged
      rw [this]
      exact put_same (by rw [abs_live (Or.inl hrd), hap]; rfl)
    exact frame_locked (b := false) (d := none) hI hv (quiet_frame hg hI habs (hI.keep rfl rfl rfl rfl) (by simp)
      ⟨hf, fun _ => ⟨hrm, hnd', hk⟩⟩ (by simp [delX, Pt.delE])) rfl rfl (.expunge _ k e _ _ hmem hap hdt)
  · simp only [Option.some.injEq, Prod.mk.injEq] at h
    obtain ⟨rfl, rfl⟩ := h
    exact quiet_locked hg hI hv rfl rfl rfl ⟨hf, fun _ => ⟨hrm, hnd, hk⟩⟩ (by simp [delX, Pt.delE])

theorem step_amend {rm : GMap K Nat} (hg : GReach mapSpec gh) (hI : I g v gh) (hv : v i = some (op, .inl (.amend rm)))
    (h : step g i op (.amend rm) c = some (g', x)) : Out g v gh i op g' x := by
  obtain ⟨hst, hadd⟩ := hI.floc i op _ hv
  obtain ⟨rfl, k, hk, hrd⟩ := hI.lloc i _ _ hv rfl
  have hgi : GI g.a (some []) := mode_none hI hv rfl
  have hnc := not_committed hst
  have ham : g.a.am = false := (hgi.building (by simp)).2
  have hdt : g.a.dt k = none := (abs_none hgi hrd ham).1
  simp only [step] at h
  cases hs : afterAmend op with
  | none => simp [hs] at h
  | some s' =>
    simp only [hs, Option.some.injEq, Prod.mk.injEq] at h
    obtain ⟨rfl, rfl⟩ := h
    left
    have ha : G.a { g with amended := true } = { g.a with am := true } := rfl
    have habs : (G.a { g with amended := true }).abs = g.a.abs := rfl
    have hl : g.a.am = true → True := fun _ => trivial
    have hnew : New { g with amended := true } gh i op (.inl s') := by
      cases op <;> simp only [afterAmend, Option.some.injEq, reduceCtorEq] at hs <;> subst hs
      · exact ⟨⟨hst, rfl⟩, fun _ => ⟨rfl, k, hk, hrd, hdt⟩⟩
      · exact ⟨⟨hst, rfl⟩, fun _ => ⟨rfl, k, hk, hrd, hdt⟩⟩
      · exact ⟨⟨hst, _, _, rfl⟩, fun _ => ⟨rfl, k, hk, hrd, hdt⟩⟩
    have hloc : lockedX (.inl s' : Pt K V ⊕ Res K V) = true := by
      cases op <;> simp only [afterAmend, Option.some.injEq, reduceCtorEq] at hs <;> subst hs <;> rfl
    have hmode : modeX (.inl s' : Pt K V ⊕ Res K V) = none := by
      cases op <;> simp only [afterAmend, Option.some.injEq, reduceCtorEq] at hs <;> subst hs <;> rfl
    refine frame_locked (b := false) (d := none) hI hv (quiet_frame hg hI habs ⟨hI.fresh, hI.wfR, hI.wfD⟩ (by simp) hnew
      (fun _ _ h => absurd h hnc)) rfl (by simp [hloc]) ?_
    rw [hmode]; exact .amend _

theorem step_addCall (hg : GReach mapSpec gh) (hI : I g v gh) (hv : v i = some (op, .inl .addCall))
    (h : step g i op .addCall c = some (g', x)) : Out g v gh i op g' x := by
  obtain ⟨hst, k, f, rfl⟩ := hI.floc i op _ hv
  have hl := hI.lloc i _ _ hv rfl
  simp only [step, Option.some.injEq, Prod.mk.injEq] at h
  obtain ⟨rfl, rfl⟩ := h
  left
  exact frame_locked (b := true) (d := none) hI hv (quiet_frame hg hI rfl (hI.keep rfl rfl rfl rfl) (by simp)
    ⟨⟨hst, c, rfl⟩, fun _ => hl⟩ (by simp [delX, Pt.delE])) rfl rfl (.same _ _)

theorem step_add {w : V} (hg : GReach mapSpec gh) (hI : I g v gh) (hv : v i = some (op, .inl (.add w)))
    (h : step g i op (.add w) c = some (g', x)) : Out g v gh i op g' x := by
  obtain ⟨hst, hadd⟩ := hI.floc i op _ hv
  obtain ⟨ham, k, hk, hrd, hdt⟩ := hI.lloc i _ _ hv rfl
  have hgi : GI g.a none := mode_none hI hv rfl
  have hhas : g.a.has = true := by
    cases hh : g.a.has with
    | true => rfl
    | false => have := (hgi.noD hh).1; rw [ham] at this; simp at this
  obtain ⟨d, hd⟩ := has_dirty hhas
  simp only [step, hk, G.setDirty, hd, Option.some.injEq, Prod.mk.injEq] at h
  obtain ⟨rfl, rfl⟩ := h
  have hkey : g.a.key g.next = none := hI.fresh _ (Nat.le_refl _)
  have ha : G.a { g with dirty := some (d.set k g.next), p := upd g.p g.next (.cell i w), next := g.next + 1, key := upd g.key g.next (some k) } =
      { g.a with p := upd g.a.p g.next (.cell i w), dt := fun k' => if k' = k then some g.next else g.a.dt k', key := upd g.a.key g.next (some k) } := by
    have := a_setDirty (g := { g with p := upd g.p g.next (.cell i w), next := g.next + 1, key := upd g.key g.next (some k) }) hd k g.next
    exact this
  have hA : AStep false none g.a none (G.a { g with dirty := some (d.set k g.next), p := upd g.p g.next (.cell i w), next := g.next + 1, key := upd g.key g.next (some k) }) none := by
    rw [ha]; exact .add _ k g.next i w ham hrd hdt hkey
  have hgi' := gi_step hA hgi
  have habs : (G.a { g with dirty := some (d.set k g.next), p := upd g.p g.next (.cell i w), next := g.next + 1, key := upd g.key g.next (some k) }).abs =
      M.put g.a.abs k (some w) := by
    rw [ha]
    funext k'
    by_cases hkk : k' = k
    · subst hkk
      simp [A.abs, hrd, M.put, Ptr.get?]
    · simp only [M.put, hkk, if_false, A.abs, upd]
      cases hr : g.a.rd k' with
      | some e' => simp only; rw [if_neg]; rintro rfl; have := hgi.keyR _ _ hr; rw [hkey] at this; simp at this
      | none =>
        cases hd' : g.a.dt k' with
        | none => rfl
        | some e' => simp only; rw [if_neg]; rintro rfl; have := hgi.keyD _ _ hd'; rw [hkey] at this; simp at this
  have hak : g.a.abs k = none := abs_none' hrd hdt
  have hsp : mapSpec.step gh.cur op (addRes w op) (G.a { g with dirty := some (d.set k g.next), p := upd g.p g.next (.cell i w), next := g.next + 1, key := upd g.key g.next (some k) }).abs := by
    rw [habs, hI.cur]
    cases op <;> simp only [Op.key?, Option.some.injEq, reduceCtorEq] at hk <;> simp only [AddOk] at hadd
    · subst hk; subst hadd; exact .store _ _ _
    · subst hk; subst hadd; exact .loadOrStore_absent _ _ _ hak
    · obtain ⟨c', rfl⟩ := hadd; subst hk; exact .computeIfAbsent_absent _ _ _ _ hak
  right
  refine ⟨_, _, hst, hsp, ?_⟩
  have hres : ∀ sw pr, ResOk sw pr op (addRes w op) := by
    intro sw pr
    cases op <;> simp only [AddOk] at hadd <;> simp [ResOk]
  refine frame_locked (b := false) hI hv (commit_frame hg hst hsp ⟨?_, hI.wfR, ?_⟩ ⟨fin_commit (hres _ _), by simp [LLoc]⟩
    (by simp [delX, Pt.delE, Cont.delE])) rfl rfl hA
  · intro e he
    simp only [] at he ⊢
    rw [upd_ne _ _ (by omega)]
    exact hI.fresh e (by omega)
  · have := hI.wfD
    rw [hd] at this
    exact GMap.wf_set this k g.next

/-! ## Under the lock -/

theorem step_locked (hg : GReach mapSpec gh) (hI : I g v gh) (hv : v i = some (op, .inl .locked))
    (h : step g i op .locked c = some (g', x)) : Out g v gh i op g' x := by
  have hst : gh.st i = .invoked op := hI.floc i op _ hv
  have hgi : GI g.a none := mode_none hI hv rfl
  have hnc := not_committed hst
  have q : ∀ t : Pt K V, t.holds = true → t.mode = none → FLoc g.a gh i op t → LLoc g op t → Out g v gh i op g (.inl t) := by
    intro t h1 h2 h3 h4
    exact quiet_locked hg hI hv rfl h1 h2.symm ⟨h3, fun _ => h4⟩ (fun _ _ h => absurd h hnc)
  have hasd : ∀ {k e}, g.dirtyGet k = some e → g.a.has = true := fun h => hgi.dt_has h
  have hasa : g.amended = true → g.a.has = true := by
    intro ham
    cases hh : g.a.has with
    | true => rfl
    | false => have := (hgi.noD hh).1; rw [show g.a.am = g.amended from rfl, ham] at this; simp at this
  -- removal from `dirty`
  have delC : ∀ k, (op = .loadAndDelete k ∨ op = .delete k) → g.read.get k = none → g.amended = true → ∀ t,
      (∀ e, g.dirtyGet k = some e → t = .miss (.del e)) → (g.dirtyGet k = none → t = .miss (.ret (delRes none op))) →
      Out g v gh i op { g with dirty := g.dirty.map (·.del k) } (.inl t) := by
    intro k hop hr ham t h1 h2
    have ha := a_delDirty (g := g) k
    have hhas := hasa ham
    have hA : AStep false none g.a none (G.a { g with dirty := g.dirty.map (·.del k) }) none := by rw [ha]; exact .del _ k hr
    have hwf : (({ g with dirty := g.dirty.map (·.del k) } : G K V).dirty.getD []).WF := by
      have := hI.wfD
      cases hd : g.dirty with
      | none => exact GMap.wf_nil
      | some d => rw [hd] at this; exact GMap.wf_del this k
    have habs : (G.a { g with dirty := g.dirty.map (·.del k) }).abs = M.put g.a.abs k none := by
      rw [ha]
      funext k'
      by_cases hkk : k' = k
      · subst hkk
        have : g.a.rd k' = none := hr
        simp [A.abs, this, M.put]
      · simp [A.abs, M.put, hkk]
    have hhas' : (G.a { g with dirty := g.dirty.map (·.del k) }).has = true := by rw [ha]; exact hhas
    have hres : ∀ sw pr r, ResOk sw pr op (delRes r op) := by
      intro sw pr r; rcases hop with rfl | rfl <;> simp [ResOk]
    cases hd : g.dirtyGet k with
    | none =>
      rw [h2 hd]
      have hak : g.a.abs k = none := abs_none' hr hd
      left
      refine frame_locked (b := false) (d := none) hI hv (quiet_frame hg hI (by rw [habs, put_same hak]) ⟨hI.fresh, hI.wfR, hwf⟩ (by simp) ⟨?_, fun _ => hhas'⟩
        (by simp [delX, Pt.delE, Cont.delE])) rfl rfl hA
      refine fin_now hg hI hst ?_ (hres _ _ _)
      rcases hop with rfl | rfl
      · have := Does.loadAndDelete g.a.abs k
        rwa [put_same hak, hak] at this
      · have := Does.delete g.a.abs k
        rwa [put_same hak] at this
    | some e =>
      rw [h1 e hd]
      have hlive : g.a.Live k e := Or.inr ⟨hr, hd⟩
      obtain ⟨_, c0, w, hp⟩ := hgi.priv k e hd hr
      have hak : g.a.abs k = some w := by rw [abs_live hlive, hp]; rfl
      have hsp : mapSpec.step gh.cur op (delRes (some w) op) (G.a { g with dirty := g.dirty.map (·.del k) }).abs := by
        rw [habs, hI.cur]
        rcases hop with rfl | rfl
        · have := Does.loadAndDelete g.a.abs k
          rwa [hak] at this
        · exact .delete _ _
      right
      refine ⟨_, _, hst, hsp, ?_⟩
      refine frame_locked (b := false) hI hv (commit_frame hg hst hsp ⟨hI.fresh, hI.wfR, hwf⟩ ⟨⟨k, hop, Or.inr ⟨c0, w, ?_, ?_, ?_, trivial⟩⟩, fun _ => hhas'⟩ ?_) rfl rfl hA
      · rw [ha]
        refine ⟨live_key hgi hlive, ?_, by simp⟩
        have : g.a.rd k = none := hr
        simp [this]
      · rw [ha]; exact hp
      · simp [Ghost.commit]
      · intro e' he
        simp only [delX, Pt.delE, Cont.delE, Option.some.injEq] at he
        subst he
        exact ⟨k, hlive⟩
  simp only [step, Option.some.injEq, Prod.mk.injEq] at h
  obtain ⟨rfl, rfl⟩ := h
  cases op with
  | load k =>
    simp only [lockedStep]
    cases hr : g.read.get k with
    | some e => exact q _ rfl rfl ⟨hst, k, rfl, Or.inl (Or.inl hr)⟩ trivial
    | none =>
      simp only
      split
      · rename_i ham
        cases hd : g.dirtyGet k with
        | some e => exact q _ rfl rfl ⟨hst, k, rfl, Or.inl (Or.inr ⟨hr, hd⟩)⟩ (hasd hd)
        | none =>
          refine q _ rfl rfl (fin_now hg hI hst ?_ (by simp [ResOk])) (hasa ham)
          have := Does.load g.a.abs k
          rwa [abs_none' hr hd] at this
      · rename_i ham
        refine q _ rfl rfl (fin_now hg hI hst ?_ (by simp [ResOk])) trivial
        have := Does.load g.a.abs k
        rwa [(abs_none hgi (k := k) hr (by simpa [G.a] using ham)).2] at this
  | loadAndDelete k =>
    simp only [lockedStep]
    cases hr : g.read.get k with
    | some e => exact q _ rfl rfl ⟨k, Or.inl rfl, Or.inl ⟨hst, Or.inl hr⟩⟩ trivial
    | none =>
      simp only
      split
      · rename_i ham
        cases hd : g.dirtyGet k with
        | some e => exact delC k (Or.inl rfl) hr ham _ (by simp [hd]) (by simp [hd])
        | none => exact delC k (Or.inl rfl) hr ham _ (by simp [hd]) (by simp)
      · rename_i ham
        refine q _ rfl rfl (fin_now hg hI hst ?_ (by simp [ResOk])) trivial
        have h0 := (abs_none hgi (k := k) hr (by simpa [G.a] using ham)).2
        have := Does.loadAndDelete g.a.abs k
        rwa [put_same h0, h0] at this
  | delete k =>
    simp only [lockedStep]
    cases hr : g.read.get k with
    | some e => exact q _ rfl rfl ⟨k, Or.inr rfl, Or.inl ⟨hst, Or.inl hr⟩⟩ trivial
    | none =>
      simp only
      split
      · rename_i ham
        cases hd : g.dirtyGet k with
        | some e => exact delC k (Or.inr rfl) hr ham _ (by simp [hd]) (by simp [hd])
        | none => exact delC k (Or.inr rfl) hr ham _ (by simp [hd]) (by simp)
      · rename_i ham
        refine q _ rfl rfl (fin_now hg hI hst ?_ (by simp [ResOk])) trivial
        have h0 := (abs_none hgi (k := k) hr (by simpa [G.a] using ham)).2
        have := Does.delete g.a.abs k
        rwa [put_same h0] at this
  | range f =>
    simp only [lockedStep]
    split
    · rename_i ham
      exact q _ rfl rfl ⟨hst, f, rfl⟩ (hasa ham)
    · rename_i ham
      exact q _ rfl rfl (iterOk_read hg hI hst rfl (by simpa [G.a] using ham)) trivial
  | store k w =>
    simp only [lockedStep]
    cases hr : g.read.get k with
    | some e => exact q _ rfl rfl ⟨hst, rfl⟩ ⟨k, rfl, hr⟩
    | none =>
      simp only
      cases hd : g.dirtyGet k with
      | some e => exact q _ rfl rfl ⟨hst, k, w, rfl⟩ ⟨k, rfl, Or.inr ⟨hr, hd⟩, hgi.dt_ne hd⟩
      | none =>
        simp only
        split
        · rename_i ham
          exact q _ rfl rfl ⟨hst, rfl⟩ ⟨ham, k, rfl, hr, hd⟩
        · rename_i ham
          exact q _ rfl rfl ⟨hst, rfl⟩ ⟨rfl, by simpa [G.a] using ham, k, rfl, hr⟩
  | loadOrStore k w =>
    simp only [lockedStep]
    cases hr : g.read.get k with
    | some e => exact q _ rfl rfl ⟨hst, rfl⟩ ⟨k, rfl, hr⟩
    | none =>
      simp only
      cases hd : g.dirtyGet k with
      | some e => exact q _ rfl rfl ⟨hst, rfl, by simp⟩ ⟨k, rfl, hr, hd⟩
      | none =>
        simp only
        split
        · rename_i ham
          exact q _ rfl rfl ⟨hst, rfl⟩ ⟨ham, k, rfl, hr, hd⟩
        · rename_i ham
          exact q _ rfl rfl ⟨hst, rfl⟩ ⟨rfl, by simpa [G.a] using ham, k, rfl, hr⟩
  | computeIfAbsent k f =>
    simp only [lockedStep]
    cases hr : g.read.get k with
    | some e => exact q _ rfl rfl ⟨hst, rfl⟩ ⟨k, rfl, hr⟩
    | none =>
      simp only
      cases hd : g.dirtyGet k with
      | some e => exact q _ rfl rfl ⟨hst, rfl, by simp⟩ ⟨k, rfl, hr, hd⟩
      | none =>
        simp only
        split
        · rename_i ham
          exact q _ rfl rfl ⟨hst, _, _, rfl⟩ ⟨ham, k, rfl, hr, hd⟩
        · rename_i ham
          exact q _ rfl rfl ⟨hst, rfl⟩ ⟨rfl, by simpa [G.a] using ham, k, rfl, hr⟩
  | computeIfPresent k f =>
    simp only [lockedStep]
    cases hr : g.read.get k with
    | some e => exact q _ rfl rfl ⟨hst, rfl⟩ ⟨k, rfl, hr⟩
    | none =>
      simp only
      cases hd : g.dirtyGet k with
      | some e => exact q _ rfl rfl ⟨hst, rfl, by simp⟩ ⟨k, rfl, hr, hd⟩
      | none =>
        exact q _ rfl rfl (fin_now hg hI hst (.computeIfPresent_absent _ _ _ (abs_none' hr hd)) (by simp [ResOk])) trivial

end Verif.XSync.MapConc

import Verif.XSync.MapConcSim
/-! # Simulation of the concurrent map: steps without the lock and the functions `try...` -/
namespace Verif.XSync.MapConc
open Verif.Conc Verif.Go

variable {K V : Type} [DecidableEq K] [DecidableEq V]
variable {g g' : G K V} {v : Vw K V} {gh : Gh K V} {i : Nat} {op : Op K V} {x : Pt K V ⊕ Res K V} {c : Nat}

omit [DecidableEq V] in
theorem quiet_free {s : Pt K V} (hg : GReach mapSpec gh) (hI : I g v gh) (hv : v i = some (op, .inl s)) (hs : s.holds = false)
    (hx : lockedX x = false) (hnew : New g gh i op x) (hown : ∀ e, delX x = some e → Committed gh i → s.delE = some e) :
    Out g v gh i op g x :=
  Or.inl (frame_free hI hv (quiet_frame (d := none) hg hI rfl (hI.keep rfl rfl rfl rfl) (by simp) hnew hown) hs hx rfl rfl (fun m => .same _ m))

omit [DecidableEq V] in
theorem quiet_locked {s : Pt K V} (hg : GReach mapSpec gh) (hI : I g v gh) (hv : v i = some (op, .inl s)) (hs : s.holds = true)
    (hx : lockedX x = true) (hm : s.mode = modeX x) (hnew : New g gh i op x)
    (hown : ∀ e, delX x = some e → Committed gh i → s.delE = some e) : Out g v gh i op g x :=
  Or.inl (frame_locked (b := true) (d := none) hI hv (quiet_frame hg hI rfl (hI.keep rfl rfl rfl rfl) (by simp) hnew hown) hs (by simp [hx])
    (by rw [hm]; exact .same _ _))

omit [DecidableEq V] in
theorem iterOk_read (hg : GReach mapSpec gh) (hI : I g v gh) (hst : gh.st i = .invoked op) {f : K → V → Nat → Bool} (hop : op = .range f)
    (ham : g.a.am = false) : IterOk g.a gh i op g.read [] := by
  refine ⟨hst, ⟨f, hop⟩, hI.wfR, by simp, ?_, ?_⟩
  · intro y hy
    exact Or.inl (GMap.get_of_mem hI.wfR hy)
  · intro k
    cases hr : g.read.get k with
    | some e => exact Or.inr (Or.inl (List.mem_map.2 ⟨(k, e), GMap.mem_of_get hr, rfl⟩))
    | none =>
      right; right
      have := now hg hI (i := i) (by simp [hst]) k
      rwa [(abs_none hI.gi hr ham).2] at this

theorem step_start (hg : GReach mapSpec gh) (hI : I g v gh) (hv : v i = some (op, .inl .start))
    (h : step g i op .start c = some (g', x)) : Out g v gh i op g' x := by
  have hst : gh.st i = .invoked op := hI.floc i op _ hv
  simp only [step, Option.some.injEq, Prod.mk.injEq] at h
  obtain ⟨rfl, rfl⟩ := h
  have hnc := not_committed hst
  have hlock : New g gh i op (.inl .lock) := ⟨hst, by simp [Pt.holds]⟩
  cases op with
  | load k =>
    simp only [startStep]
    cases hr : g.read.get k with
    | some e =>
      exact quiet_free hg hI hv rfl rfl ⟨⟨hst, k, rfl, Or.inl (Or.inl hr)⟩, by simp [Pt.holds]⟩ (fun _ _ h => absurd h hnc)
    | none =>
      simp only
      split
      · exact quiet_free hg hI hv rfl rfl hlock (fun _ _ h => absurd h hnc)
      · rename_i ham
        have h0 := (abs_none hI.gi (k := k) hr (by simpa [G.a] using ham)).2
        refine quiet_free hg hI hv rfl rfl (fin_now hg hI hst ?_ (by simp [ResOk])) (fun _ _ h => absurd h hnc)
        have := Does.load g.a.abs k
        rwa [h0] at this
  | loadAndDelete k =>
    simp only [startStep]
    cases hr : g.read.get k with
    | some e =>
      exact quiet_free hg hI hv rfl rfl ⟨⟨k, Or.inl rfl, Or.inl ⟨hst, Or.inl hr⟩⟩, by simp [Pt.holds]⟩ (fun _ _ h => absurd h hnc)
    | none =>
      simp only
      split
      · exact quiet_free hg hI hv rfl rfl hlock (fun _ _ h => absurd h hnc)
      · rename_i ham
        have h0 := (abs_none hI.gi (k := k) hr (by simpa [G.a] using ham)).2
        refine quiet_free hg hI hv rfl rfl (fin_now hg hI hst ?_ (by simp [ResOk])) (fun _ _ h => absurd h hnc)
        have := Does.loadAndDelete g.a.abs k
        rwa [put_same h0, h0] at this
  | delete k =>
    simp only [startStep]
    cases hr : g.read.get k with
    | some e =>
      exact quiet_free hg hI hv rfl rfl ⟨⟨k, Or.inr rfl, Or.inl ⟨hst, Or.inl hr⟩⟩, by simp [Pt.holds]⟩ (fun _ _ h => absurd h hnc)
    | none =>
      simp only
      split
      · exact quiet_free hg hI hv rfl rfl hlock (fun _ _ h => absurd h hnc)
      · rename_i ham
        have h0 := (abs_none hI.gi (k := k) hr (by simpa [G.a] using ham)).2
        refine quiet_free hg hI hv rfl rfl (fin_now hg hI hst ?_ (by simp [ResOk])) (fun _ _ h => absurd h hnc)
        have := Does.delete g.a.abs k
        rwa [put_same h0] at this
  | range f =>
    simp only [startStep]
    split
    · exact quiet_free hg hI hv rfl rfl hlock (fun _ _ h => absurd h hnc)
    · rename_i ham
      exact quiet_free hg hI hv rfl rfl ⟨iterOk_read hg hI hst rfl (by simpa [G.a] using ham), by simp [Pt.holds]⟩ (fun _ _ h => absurd h hnc)
  | _ =>
    rename_i k _
    simp only [startStep]
    cases hr : g.read.get k with
    | some e =>
      exact quiet_free hg hI hv rfl rfl ⟨⟨hst, rfl, fun _ => ⟨k, rfl, Or.inl hr⟩⟩, by simp [Pt.holds]⟩ (fun _ _ h => absurd h hnc)
    | none => exact quiet_free hg hI hv rfl rfl hlock (fun _ _ h => absurd h hnc)

/-! ## The functions `try...` -/

omit [DecidableEq V] [DecidableEq K] in
/-- The entry counts for the key. -/
theorem ent_live {a : A K V} {m : Mode} {e : Nat} (hf : FTry a gh i op m e) (hl : (m != .free) = true → LEnt a op m e) (hp : a.p e ≠ .expunged) :
    ∃ k, op.key? = some k ∧ a.Live k e := by
  cases m with
  | free =>
    obtain ⟨k, h1, h2⟩ := hf.2.2 rfl
    exact ⟨k, h1, h2.elim Or.inl (fun h => absurd h.2.1 hp)⟩
  | inRead => obtain ⟨k, h1, h2, _⟩ := hl (by decide); exact ⟨k, h1, Or.inl h2⟩
  | inDirty => obtain ⟨k, h1, h2, h3⟩ := hl (by decide); exact ⟨k, h1, Or.inr ⟨h2, h3⟩⟩

/-- Proof only: part of an invariant or simulation; models no code. -/
def DecOk (sw : K → Option V → Prop) (op : Op K V) (p : Ptr V) : Dec K V → Prop
  | .fail => p = .expunged ∨ (p = .nil ∧ ∃ k f, op = .computeIfPresent k f)
  | .done r => (∀ (s : M K V) k, op.key? = some k → s k = p.get? → Does s op r s) ∧ (∀ pr, ResOk sw pr op r) ∧ p ≠ .expunged
  | .cas x => POk op p ∧ XOk sw op x
  | .call => POk op p ∧ (callF op p 0).isSome

omit [DecidableEq V] in
theorem first_ok (sw : K → Option V → Prop) (ht : op.tries = true) (p : Ptr V) : DecOk sw op p (first op p) := by
  cases op <;> simp only [Op.tries, Bool.false_eq_true] at ht <;> cases p <;> simp only [first, DecOk, POk, XOk, callF, ResOk, Op.key?, Option.some.injEq, Ptr.get?]
  all_goals first
    | simp; done
    | (refine ⟨?_, fun _ => trivial, by simp⟩; rintro s k rfl h; first | exact .loadOrStore_found _ _ _ _ h | exact .computeIfAbsent_found _ _ _ _ h | exact .computeIfPresent_absent _ _ _ h)
    | simp

omit [DecidableEq V] in
theorem again_ok (sw : K → Option V → Prop) (ht : op.tries = true) (p : Ptr V) {x : V × Option V} (hx : XOk sw op x) :
    DecOk sw op p (again x op p) := by
  cases op <;> simp only [Op.tries, Bool.false_eq_true] at ht <;> cases p <;> simp only [again, DecOk, POk, ResOk, Op.key?, Option.some.injEq, Ptr.get?]
  all_goals first
    | simp; done
    | (refine ⟨?_, fun _ => trivial, by simp⟩; rintro s k rfl h; first | exact .loadOrStore_found _ _ _ _ h | exact .computeIfAbsent_found _ _ _ _ h | exact .computeIfPresent_absent _ _ _ h)
    | exact ⟨by simp, hx⟩
    | simp

omit [DecidableEq V] in
/-- A step of `try...` that ends it or goes on without a change. -/
theorem after_ok {s : Pt K V} {m : Mode} {e : Nat} {r : Res K V} (hg : GReach mapSpec gh) (hI : I g v gh) (hv : v i = some (op, .inl s))
    (hs : s.holds = (m != .free)) (hsm : s.mode = none) (hl : (m != .free) = true → LEnt g.a op m e) (hfin : Fin' gh i op r) :
    Out g v gh i op g (after m r) := by
  cases m with
  | free => exact quiet_free hg hI hv hs rfl hfin (by simp [after, delX])
  | inRead =>
    exact quiet_locked hg hI hv hs rfl hsm ⟨hfin, by simp [LLoc]⟩ (by simp [after, delX, Pt.delE, Cont.delE])
  | inDirty =>
    obtain ⟨k, _, _, h3⟩ := hl (by decide)
    exact quiet_locked hg hI hv hs rfl hsm ⟨hfin, fun _ => hI.gi.dt_has h3⟩ (by simp [after, delX, Pt.delE, Cont.delE])

omit [DecidableEq V] in
theorem dec_step {s : Pt K V} {m : Mode} {e : Nat} {D : Dec K V} (hg : GReach mapSpec gh) (hI : I g v gh) (hv : v i = some (op, .inl s))
    (hs : s.holds = (m != .free)) (hsm : s.mode = none) (hf : FTry g.a gh i op m e) (hl : (m != .free) = true → LEnt g.a op m e)
    (hD : DecOk (saw gh i) op (g.p e) D) : Out g v gh i op g (decide' op m e (g.p e) D) := by
  have hst := hf.1
  have hnc := not_committed hst
  have quiet : ∀ t : Pt K V, t.holds = (m != .free) → t.mode = none → FLoc g.a gh i op t → LLoc g op t → Out g v gh i op g (.inl t) := by
    intro t h1 h2 h3 h4
    cases hm : (m != .free) with
    | false => exact quiet_free hg hI hv (by rw [hs, hm]) (by simp [lockedX, h1, hm]) ⟨h3, fun _ => h4⟩ (fun _ _ h => absurd h hnc)
    | true =>
      exact quiet_locked hg hI hv (by rw [hs, hm]) (by simp [lockedX, h1, hm]) (by simp [modeX, h2, hsm]) ⟨h3, fun _ => h4⟩ (fun _ _ h => absurd h hnc)
  have hent : LEnt g.a op m e := by
    cases hm : m with
    | free => trivial
    | _ => rw [← hm]; exact hl (by rw [hm]; decide)
  have hap : g.a.p e = g.p e := rfl
  cases D with
  | fail =>
    have key : m ≠ .free → Fin' gh i op (failRes op) := by
      intro hm
      rcases hD with hD | ⟨hD, k, f, rfl⟩
      · exfalso
        cases m with
        | free => exact hm rfl
        | inRead => obtain ⟨k, h1, h2, h3⟩ := hent; exact h3 hD
        | inDirty => obtain ⟨k, h1, h2, h3⟩ := hent; exact hI.gi.dt_ne h3 hD
      · obtain ⟨k', h1, h2⟩ := ent_live hf hl (by rw [hap, hD]; simp)
        simp only [Op.key?, Option.some.injEq] at h1
        subst h1
        refine fin_now hg hI hst (.computeIfPresent_absent _ _ _ ?_) (by simp [failRes, ResOk])
        rw [abs_live h2, hap, hD]; rfl
    cases m with
    | free => exact quiet_free hg hI hv hs rfl ⟨hst, by simp [Pt.holds]⟩ (fun _ _ h => absurd h hnc)
    | inRead => exact after_ok (m := .inRead) hg hI hv hs hsm hl (key (by simp))
    | inDirty => exact after_ok (m := .inDirty) hg hI hv hs hsm hl (key (by simp))
  | done r =>
    obtain ⟨h1, h2, h3⟩ := hD
    obtain ⟨k, h4, h5⟩ := ent_live hf hl h3
    exact after_ok hg hI hv hs hsm hl (fin_now hg hI hst (h1 _ k h4 (abs_live h5)) (h2 _))
  | cas y => exact quiet _ rfl rfl ⟨hf, hD.1, hD.2⟩ hent
  | call =>
    refine quiet _ rfl rfl ⟨hf, hD.1, hD.2, ?_⟩ hent
    intro k c w h1 h2
    obtain ⟨k', h4, h5⟩ := ent_live hf hl (by rw [hap, h2]; simp)
    rw [h1] at h4
    simp only [Option.some.injEq] at h4
    subst h4
    have := now hg hI (i := i) (by simp [hst]) k
    rwa [abs_live h5, hap, h2] at this

theorem step_tryLoad {m : Mode} {e : Nat} (hg : GReach mapSpec gh) (hI : I g v gh) (hv : v i = some (op, .inl (.tryLoad m e)))
    (h : step g i op (.tryLoad m e) c = some (g', x)) : Out g v gh i op g' x := by
  have hf := hI.floc i op _ hv
  simp only [step, Option.some.injEq, Prod.mk.injEq] at h
  obtain ⟨rfl, rfl⟩ := h
  exact dec_step hg hI hv rfl rfl hf (hI.lloc i op _ hv) (first_ok _ hf.2.1 _)

theorem step_reload {m : Mode} {e : Nat} {y : V × Option V} (hg : GReach mapSpec gh) (hI : I g v gh) (hv : v i = some (op, .inl (.reload m e y)))
    (h : step g i op (.reload m e y) c = some (g', x)) : Out g v gh i op g' x := by
  have hf := hI.floc i op _ hv
  simp only [step, Option.some.injEq, Prod.mk.injEq] at h
  obtain ⟨rfl, rfl⟩ := h
  exact dec_step hg hI hv rfl rfl hf.1 (hI.lloc i op _ hv) (again_ok _ hf.1.2.1 _ hf.2)

omit [DecidableEq V] in
theorem callF_ok {sw : K → Option V → Prop} {p : Ptr V} {y : V × Option V} (h : callF op p c = some y)
    (hs : ∀ k c w, op.key? = some k → p = .cell c w → sw k (some w)) : XOk sw op y := by
  unfold callF at h
  split at h
  · simp only [Option.some.injEq] at h; subst h; exact ⟨c, rfl⟩
  · rename_i k f c' w
    simp only [Option.some.injEq] at h; subst h; exact ⟨w, c, rfl, hs k c' w rfl rfl⟩
  · simp at h

theorem step_call {m : Mode} {e : Nat} {p : Ptr V} (hg : GReach mapSpec gh) (hI : I g v gh) (hv : v i = some (op, .inl (.call m e p)))
    (h : step g i op (.call m e p) c = some (g', x)) : Out g v gh i op g' x := by
  obtain ⟨hf, h2, h3, h4⟩ := hI.floc i op _ hv
  have hl := hI.lloc i op _ hv
  simp only [step] at h
  cases hc : callF op p c with
  | none => simp [hc] at h
  | some y =>
    simp only [hc, Option.some.injEq, Prod.mk.injEq] at h
    obtain ⟨rfl, rfl⟩ := h
    have hnew : New { g with calls := upd g.calls i (g.calls i + 1) } gh i op (.inl (.cas m e p y)) :=
      ⟨⟨hf, h2, callF_ok hc h4⟩, hl⟩
    have hfr : Frame g gh i op (.call m e p) none { g with calls := upd g.calls i (g.calls i + 1) } gh (.inl (.cas m e p y)) :=
      quiet_frame hg hI rfl (hI.keep rfl rfl rfl rfl) (by simp) hnew (by simp [delX, Pt.delE])
    left
    cases hm : (m != .free) with
    | false => exact frame_free hI hv hfr hm hm rfl rfl (fun m => .same _ m)
    | true => exact frame_locked (b := true) hI hv hfr hm (by simp [lockedX, Pt.holds, hm]) (.same _ _)

theorem step_cas {m : Mode} {e : Nat} {p : Ptr V} {y : V × Option V} (hg : GReach mapSpec gh) (hI : I g v gh)
    (hv : v i = some (op, .inl (.cas m e p y))) (h : step g i op (.cas m e p y) c = some (g', x)) : Out g v gh i op g' x := by
  obtain ⟨hf, h2, h3⟩ := hI.floc i op _ hv
  have hl := hI.lloc i op _ hv
  have hst := hf.1
  have hnc := not_committed hst
  simp only [step] at h
  split at h
  · rename_i hp
    simp only [Option.some.injEq, Prod.mk.injEq] at h
    obtain ⟨rfl, rfl⟩ := h
    have hpe : g.a.p e = p := hp
    have hne : g.a.p e ≠ .expunged := by
      rw [hpe]
      intro h0
      rw [h0] at h2
      cases op <;> simp [POk] at h2
    obtain ⟨k, hk, hlive⟩ := ent_live hf hl hne
    have habs : (g.setP e (.cell i y.1)).a.abs = M.put g.a.abs k (some y.1) := abs_setP hI.gi hlive (.cell i y.1)
    have hak : g.a.abs k = p.get? := by rw [abs_live hlive, hpe]
    have hsp : mapSpec.step gh.cur op (okRes y op) (g.setP e (.cell i y.1)).a.abs := by
      rw [habs, hI.cur]
      cases op <;> simp only [Op.key?, Option.some.injEq, reduceCtorEq] at hk <;> simp only [POk, XOk] at h2 h3
      · subst hk; subst h3; exact .store _ _ _
      · subst hk; subst h3; subst h2; exact .loadOrStore_absent _ _ _ hak
      · obtain ⟨c', rfl⟩ := h3; subst hk; subst h2; exact .computeIfAbsent_absent _ _ _ _ hak
      · obtain ⟨w, c', rfl, _⟩ := h3; subst hk; obtain ⟨c2, w', rfl⟩ := h2; exact .computeIfPresent_found _ _ _ _ w' _ hak
    right
    refine ⟨okRes y op, (g.setP e (.cell i y.1)).a.abs, hst, hsp, ?_⟩
    have hfin : Fin' (gh.commit i op (okRes y op) (g.setP e (.cell i y.1)).a.abs) i op (okRes y op) := by
      apply fin_commit
      cases op <;> simp only [okRes, ResOk]
      simp only [XOk] at h3
      obtain ⟨w, c', rfl, h5⟩ := h3
      exact pre_commit hg h5
    cases m with
    | free =>
      have hrd : g.a.rd k = some e := by
        obtain ⟨k', h4, h5⟩ := hf.2.2 rfl
        rw [hk] at h4; simp only [Option.some.injEq] at h4; subst h4
        exact h5.elim id (fun h => absurd h.2.1 hne)
      exact frame_free hI hv (commit_frame hg hst hsp (hI.keep rfl rfl rfl rfl) hfin (by simp [after, delX])) rfl rfl rfl rfl
        (fun m => .write _ m k e i y.1 hrd hne)
    | inRead =>
      obtain ⟨k', h4, h5, _⟩ := hl rfl
      rw [hk] at h4; simp only [Option.some.injEq] at h4; subst h4
      exact frame_locked (b := true) hI hv (commit_frame hg hst hsp (hI.keep rfl rfl rfl rfl) ⟨hfin, by simp [LLoc]⟩
        (by simp [after, delX, Pt.delE, Cont.delE])) rfl rfl (.write _ _ k e i y.1 h5 hne)
    | inDirty =>
      obtain ⟨k', h4, h5, h6⟩ := hl rfl
      rw [hk] at h4; simp only [Option.some.injEq] at h4; subst h4
      exact frame_locked (b := false) hI hv (commit_frame hg hst hsp (hI.keep rfl rfl rfl rfl) ⟨hfin, fun _ => hI.gi.dt_has h6⟩
        (by simp [after, delX, Pt.delE, Cont.delE])) rfl rfl (.writeD _ _ k e i y.1 h5 h6)
  · simp only [Option.some.injEq, Prod.mk.injEq] at h
    obtain ⟨rfl, rfl⟩ := h
    have hnew : New g gh i op (.inl (.reload m e y)) := ⟨⟨hf, h3⟩, hl⟩
    cases hm : (m != .free) with
    | false => exact quiet_free hg hI hv hm hm hnew (by simp [delX, Pt.delE])
    | true => exact quiet_locked hg hI hv hm hm rfl hnew (by simp [delX, Pt.delE])

/-! ## Loads, deletions and the loop of `Range` -/

theorem step_eload {e : Nat} (hg : GReach mapSpec gh) (hI : I g v gh) (hv : v i = some (op, .inl (.eload e)))
    (h : step g i op (.eload e) c = some (g', x)) : Out g v gh i op g' x := by
  obtain ⟨hst, k, rfl, hh⟩ := hI.floc i op _ hv
  simp only [step, Option.some.injEq, Prod.mk.injEq] at h
  obtain ⟨rfl, rfl⟩ := h
  refine quiet_free hg hI hv rfl rfl ?_ (by simp [delX])
  have hap : g.a.p e = g.p e := rfl
  rcases hh with hh | ⟨_, ⟨n, h1, h2⟩, _⟩
  · refine fin_now hg hI hst ?_ (by simp [ResOk])
    have := Does.load g.a.abs k
    rwa [abs_live hh, hap] at this
  · refine ⟨Or.inr (Or.inl ⟨hst, n, h1, ?_⟩), by simp [ResOk]⟩
    have := Does.load (gh.at' n) k
    rwa [h2, hap] at this

theorem step_del {e : Nat} (hg : GReach mapSpec gh) (hI : I g v gh) (hv : v i = some (op, .inl (.del e)))
    (h : step g i op (.del e) c = some (g', x)) : Out g v gh i op g' x := by
  obtain ⟨k, hop, hh⟩ := hI.floc i op _ hv
  have hap : g.a.p e = g.p e := rfl
  have none_ok : g.p e = .nil ∨ g.p e = .expunged → Out g v gh i op g (.inr (delRes none op)) := by
    intro hp
    refine quiet_free hg hI hv rfl rfl ?_ (by simp [delX])
    rcases hh with ⟨hst, hh⟩ | ⟨c, w, _, h1, _⟩
    · have hn : ∃ n, gh.Inst i n ∧ gh.at' n k = none := by
        rcases hh with hh | ⟨_, _, h3⟩
        · have := now hg hI (i := i) (by simp [hst]) k
          rw [abs_live (Or.inl hh), hap] at this
          rcases hp with hp | hp <;> rw [hp] at this <;> exact this
        · exact h3
      obtain ⟨n, h1, h2⟩ := hn
      refine ⟨Or.inr (Or.inl ⟨hst, n, h1, ?_⟩), ?_⟩
      · rcases hop with rfl | rfl
        · have := Does.loadAndDelete (gh.at' n) k
          rwa [put_same h2, h2] at this
        · have := Does.delete (gh.at' n) k
          rwa [put_same h2] at this
      · rcases hop with rfl | rfl <;> simp [ResOk]
    · rw [hap] at h1; rw [h1] at hp; simp at hp
  simp only [step] at h
  split at h
  · rename_i j w hp
    simp only [Option.some.injEq, Prod.mk.injEq] at h
    obtain ⟨rfl, rfl⟩ := h
    refine quiet_free hg hI hv rfl rfl ⟨⟨⟨k, hop, ?_⟩, j, w, rfl⟩, by simp [Pt.holds]⟩ (by simp [delX, Pt.delE])
    rcases hh with hh | ⟨c, w', h1, h2, h3, _⟩
    · exact Or.inl hh
    · exact Or.inr ⟨c, w', h1, h2, h3, by rw [← h2, hap, hp]⟩
  · rename_i hp
    simp only [Option.some.injEq, Prod.mk.injEq] at h
    obtain ⟨rfl, rfl⟩ := h
    apply none_ok
    cases hq : g.p e with
    | nil => simp
    | expunged => simp
    | cell j w => exact absurd hq (hp j w)

theorem step_delCas {e : Nat} {p : Ptr V} (hg : GReach mapSpec gh) (hI : I g v gh) (hv : v i = some (op, .inl (.delCas e p)))
    (h : step g i op (.delCas e p) c = some (g', x)) : Out g v gh i op g' x := by
  obtain ⟨⟨k, hop, hh⟩, c0, w0, rfl⟩ := hI.floc i op _ hv
  have hap : g.a.p e = g.p e := rfl
  have hres : ∀ sw pr r, ResOk sw pr op (delRes r op) := by
    intro sw pr r; rcases hop with rfl | rfl <;> simp [ResOk]
  simp only [step] at h
  split at h
  · rename_i hp
    simp only [Option.some.injEq, Prod.mk.injEq] at h
    obtain ⟨rfl, rfl⟩ := h
    rcases hh with ⟨hst, hh⟩ | ⟨c, w, h1, h2, h3, h4⟩
    · have hrd : g.a.rd k = some e := hh.elim id (fun h => by have := h.2.1; rw [hap, hp] at this; simp at this)
      have habs : (g.setP e .nil).a.abs = M.put g.a.abs k none := abs_setP hI.gi (Or.inl hrd) .nil
      have hak : g.a.abs k = some w0 := by rw [abs_live (Or.inl hrd), hap, hp]; rfl
      have hsp : mapSpec.step gh.cur op (delRes (some w0) op) (g.setP e .nil).a.abs := by
        rw [habs, hI.cur]
        rcases hop with rfl | rfl
        · have := Does.loadAndDelete g.a.abs k
          rwa [hak] at this
        · exact .delete _ _
      right
      refine ⟨_, _, hst, hsp, ?_⟩
      exact frame_free hI hv (commit_frame hg hst hsp (hI.keep rfl rfl rfl rfl) (fin_commit (hres _ _ _)) (by simp [delX])) rfl rfl rfl rfl
        (fun m => .erase _ m k e hrd (by rw [hap, hp]; simp))
    · left
      have habs : (g.setP e .nil).a.abs = g.a.abs := abs_orphan hI.gi h1 .nil
      simp only [Ptr.cell.injEq] at h4
      obtain ⟨rfl, rfl⟩ := h4
      refine frame_free (d := some e) hI hv (quiet_frame hg hI habs (hI.keep rfl rfl rfl rfl) ?_ ⟨Or.inl h3, hres _ _ _⟩ (by simp [delX])) rfl rfl rfl rfl
        (fun m => .drop _ m k e c w h1 h2)
      intro e' he
      simp only [Option.some.injEq] at he
      subst he
      exact ⟨rfl, _, _, h3⟩
  · rename_i hp
    simp only [Option.some.injEq, Prod.mk.injEq] at h
    obtain ⟨rfl, rfl⟩ := h
    refine quiet_free hg hI hv rfl rfl ⟨⟨k, hop, hh.imp id ?_⟩, by simp [Pt.holds]⟩ (by simp [delX, Pt.delE])
    rintro ⟨c, w, h1, h2, h3, h4⟩
    exact ⟨c, w, h1, h2, h3, trivial⟩

theorem erase_perm {α : Type} {l : List α} {n : Nat} {y : α} (h : l[n]? = some y) : (y :: l.eraseIdx n).Perm l := by
  obtain ⟨hn, rfl⟩ := List.getElem?_eq_some_iff.1 h
  exact List.getElem_cons_eraseIdx_perm hn

theorem step_iter {todo : List (K × Nat)} {vis : List (K × V)} (hg : GReach mapSpec gh) (hI : I g v gh)
    (hv : v i = some (op, .inl (.iter todo vis))) (h : step g i op (.iter todo vis) c = some (g', x)) : Out g v gh i op g' x := by
  obtain ⟨hst, ⟨f, rfl⟩, hnd, hvis, htodo, hall⟩ := hI.floc i op _ hv
  have hap : ∀ e, g.a.p e = g.p e := fun _ => rfl
  have hnow := now hg hI (i := i) (by simp [hst])
  simp only [step] at h
  split at h
  · simp only [Option.some.injEq, Prod.mk.injEq] at h
    obtain ⟨rfl, rfl⟩ := h
    refine quiet_free hg hI hv rfl rfl (fin_now hg hI hst (.range _ _ _ _) ⟨by simpa using hnd, hvis, fun _ k => ?_⟩) (by simp [delX])
    rcases hall k with h | h | h
    · exact Or.inl h
    · simp at h
    · exact Or.inr h
  · cases hy : todo[c % todo.length]? with
    | none => simp [hy] at h
    | some y =>
      obtain ⟨k, e⟩ := y
      have hperm := erase_perm hy
      generalize todo.eraseIdx (c % todo.length) = rest at hperm h
      have hmem : (k, e) ∈ todo := hperm.mem_iff.1 (by simp)
      have hrest : ∀ z, z ∈ rest → z ∈ todo := fun z hz => hperm.mem_iff.1 (by simp [hz])
      have hkeys : ∀ k', k' ∈ todo.map (·.1) ↔ k' = k ∨ k' ∈ rest.map (·.1) := by
        intro k'
        rw [← (hperm.map (·.1)).mem_iff]; simp
      have hnd2 : (vis.map (·.1) ++ (k :: rest.map (·.1))).Nodup := by
        refine ((List.Perm.append_left (vis.map (·.1)) ?_).nodup_iff).2 hnd
        exact hperm.map (·.1)
      have hh := htodo _ hmem
      simp only [hy] at h
      split at h
      · rename_i j w hp
        simp only [Option.some.injEq, Prod.mk.injEq] at h
        obtain ⟨rfl, rfl⟩ := h
        refine quiet_free hg hI hv rfl rfl ⟨⟨hst, ⟨f, rfl⟩, ?_, ?_, fun z hz => htodo z (hrest z hz), ?_⟩, by simp [Pt.holds]⟩ (by simp [delX, Pt.delE])
        · simpa using hnd2
        · intro z hz
          simp only [List.mem_append, List.mem_singleton] at hz
          rcases hz with hz | rfl
          · exact hvis z hz
          · have hrd : g.a.rd k = some e := hh.elim id (fun h => by have := h.2.1; rw [hap, hp] at this; simp at this)
            have := hnow k
            rw [abs_live (Or.inl hrd), hap, hp] at this
            exact this
        · intro k'
          rcases hall k' with h | h | h
          · exact Or.inl (by simp at h ⊢; exact Or.inl h)
          · rcases (hkeys k').1 h with rfl | h
            · exact Or.inl (by simp)
            · exact Or.inr (Or.inl h)
          · exact Or.inr (Or.inr h)
      · rename_i hp
        simp only [Option.some.injEq, Prod.mk.injEq] at h
        obtain ⟨rfl, rfl⟩ := h
        have hnone : saw gh i k none := by
          rcases hh with hrd | h
          · have := hnow k
            rw [abs_live (Or.inl hrd), hap] at this
            cases hq : g.p e with
            | cell j w => exact absurd hq (hp j w)
            | _ => rw [hq] at this; exact this
          · exact h.2.2
        refine quiet_free hg hI hv rfl rfl ⟨⟨hst, ⟨f, rfl⟩, ?_, hvis, fun z hz => htodo z (hrest z hz), ?_⟩, by simp [Pt.holds]⟩ (by simp [delX, Pt.delE])
        · refine hnd2.sublist (List.Sublist.append_left (List.sublist_cons_self _ _) _)
        · intro k'
          rcases hall k' with h | h | h
          · exact Or.inl h
          · rcases (hkeys k').1 h with rfl | h
            · exact Or.inr (Or.inr hnone)
            · exact Or.inr (Or.inl h)
          · exact Or.inr (Or.inr h)

theorem step_icall {todo : List (K × Nat)} {vis : List (K × V)} {k : K} {w : V} (hg : GReach mapSpec gh) (hI : I g v gh)
    (hv : v i = some (op, .inl (.icall todo vis k w))) (h : step g i op (.icall todo vis k w) c = some (g', x)) : Out g v gh i op g' x := by
  have hok := hI.floc i op _ hv
  obtain ⟨hst, ⟨f, rfl⟩, hnd, hvis, htodo, hall⟩ := hI.floc i op _ hv
  simp only [step, Option.some.injEq, Prod.mk.injEq] at h
  obtain ⟨rfl, rfl⟩ := h
  split
  · exact quiet_free hg hI hv rfl rfl ⟨hok, by simp [Pt.holds]⟩ (by simp [delX, Pt.delE])
  · refine quiet_free hg hI hv rfl rfl (fin_now hg hI hst (.range _ _ _ _) ⟨(List.nodup_append.1 hnd).1, hvis, by simp⟩) (by simp [delX])

end Verif.XSync.MapConc

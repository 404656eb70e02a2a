import Verif.XSync.MapMem
import Verif.XSync.MapConcProps
import Verif.Conc.Refine
/-!
# Simulation of the memory-level program by the program with map values
-/
set_option linter.unusedSectionVars false

namespace Verif.XSync.MapMem
open Verif.Conc Verif.Go
open Verif.XSync.MapConc (Ptr Op Res Mode delRes Pt Cont G)

variable {K V : Type}

/-- A map that is not modified any more. -/
def Plain.Pub (D : Plain K) (m : Option Nat) : Prop := ∀ r, m = some r → r ∈ D.pub

/-- `m.dirty` and `m.misses` have the values `gd` and `gm`. -/
structure Exact (D : Plain K) (gd : Option (GMap K Nat)) (gm : Nat) : Prop where
  dirty : gd = D.dirty.map D.maps
  misses : gm = D.misses
  priv : ∀ r, D.dirty = some r → r ∉ D.pub

variable [DecidableEq K] [DecidableEq V]

/-- The slow paths. -/
def slowOf : Op K V → Cmd K V
  | .load k => loadSlow k
  | .store k v => storeSlow k v
  | .loadOrStore k v => loadOrStoreSlow k v
  | .computeIfAbsent k f => computeIfAbsentSlow k f
  | .computeIfPresent k f => computeIfPresentSlow k f
  | .loadAndDelete k => deleteSlow (.loadAndDelete k) k
  | .delete k => deleteSlow (.delete k) k
  | .range f => rangeSlow f

/-- What follows `unlock`. -/
inductive KRel (D : Plain K) (op : Op K V) : Cont K V → Cmd K V → Prop
  | ret (r) : KRel D op (.ret r) (.ret r)
  | eload (e) : (∃ k, op = .load k) → KRel D op (.eload e) (entryLoad e)
  | del (e) : (∃ k, op = .loadAndDelete k ∨ op = .delete k) → KRel D op (.del e) (.goto (.delete op e))
  | iter (f m) : op = .range f → D.Pub m → KRel D op (.iter (D.get m)) (.goto (.rangeLoop f m [] []))

/-- Call at `try...`. -/
inductive TryRel : Op K V → Mode → Nat → Label K V → Prop
  | store (k v e) : TryRel (.store k v) .free e (.tryStore k v e)
  | los (k v md e) : TryRel (.loadOrStore k v) md e (.tryLoadOrStore md k v e)
  | cia (k f md e) : TryRel (.computeIfAbsent k f) md e (.tryComputeIfAbsent md k f e)
  | cip (k f md e) : TryRel (.computeIfPresent k f) md e (.tryComputeIfPresent md k f e)

/-- Proof only: the call has the lock. -/
def Mode.held : Mode → Bool
  | .free => false
  | _ => true

/-- What follows `unexpunge`. -/
inductive UnexpRel : Op K V → K → Nat → Cmd K V → Prop
  | store (k v e) : UnexpRel (.store k v) k e (storeLocked v e)
  | los (k v e) : UnexpRel (.loadOrStore k v) k e (.goto (.tryLoadOrStore .inRead k v e))
  | cia (k f e) : UnexpRel (.computeIfAbsent k f) k e (.goto (.tryComputeIfAbsent .inRead k f e))
  | cip (k f e) : UnexpRel (.computeIfPresent k f) k e (.goto (.tryComputeIfPresent .inRead k f e))

/-- Operations that add keys. -/
def AddOp : Op K V → Prop
  | .store _ _ | .loadOrStore _ _ | .computeIfAbsent _ _ => True
  | _ => False

/-- Points at which the next instruction is a step of the program with map values. -/
inductive Base : Bool → Plain K → Op K V → Cmd K V → Pt K V ⊕ Res K V → Prop
  | start (D op) : Base false D op (entry op) (.inl .start)
  | lock (D op) : Base false D op (slowOf op) (.inl .lock)
  | locked (D op t) : slowOf op = .lock t → Base true D op t (.inl .locked)
  | try' (D op md e l) : TryRel op md e l → Base (Mode.held md) D op (code l) (.inl (.tryLoad md e))
  | callA (D md k f e) : Base (Mode.held md) D (.computeIfAbsent k f) (.user fun c => .goto (.ciaLoop md k f e (f k c))) (.inl (.call md e .nil))
  | callP (D md k f e j w) : Base (Mode.held md) D (.computeIfPresent k f) (.user fun c => .goto (.cipLoop md k f e (.cell j w) w (f k w c)))
      (.inl (.call md e (.cell j w)))
  | casS (D k v e p) : Base false D (.store k v) (.casPtr e p (.var v) fun ok => if ok then .ret .unit else .goto (.tryStore k v e))
      (.inl (.cas .free e p (v, none)))
  | casL (D md k v e) : Base (Mode.held md) D (.loadOrStore k v) (code (.losLoop md k v e)) (.inl (.cas md e .nil (v, none)))
  | casA (D md k f e i) : Base (Mode.held md) D (.computeIfAbsent k f) (code (.ciaLoop md k f e i)) (.inl (.cas md e .nil (i, none)))
  | casP (D md k f e p w i) : Base (Mode.held md) D (.computeIfPresent k f) (code (.cipLoop md k f e p w i)) (.inl (.cas md e p (i, some w)))
  | reS (D k v e) : Base false D (.store k v) (code (.tryStore k v e)) (.inl (.reload .free e (v, none)))
  | reL (D md k v e kk) : code (.losLoop md k v e) = .casPtr e .nil (.var v) kk →
      Base (Mode.held md) D (.loadOrStore k v) (kk false) (.inl (.reload md e (v, none)))
  | reA (D md k f e i kk) : code (.ciaLoop md k f e i) = .casPtr e .nil (.var i) kk →
      Base (Mode.held md) D (.computeIfAbsent k f) (kk false) (.inl (.reload md e (i, none)))
  | reP (D md k f e p w i kk) : code (.cipLoop md k f e p w i) = .casPtr e p (.var i) kk →
      Base (Mode.held md) D (.computeIfPresent k f) (kk false) (.inl (.reload md e (i, some w)))
  | unexp (D op k e t) : UnexpRel op k e t → Base true D op (unexpunge k e t) (.inl (.unexp e))
  | storeLocked (D k v e) : Base true D (.store k v) (storeLocked v e) (.inl (.storeLocked e))
  | miss (D op kont t) : KRel D op kont t → Base true D op (missLocked (.unlock t)) (.inl (.miss kont))
  | promote (D op kont t) : KRel D op kont t →
      Base true D op (.storeRead ⟨D.dirty, false⟩ <| .setDirty none <| .setMisses 0 <| .unlock t) (.inl (.promote kont))
  | rpromote (D f) : Base true D (.range f) (.storeRead ⟨D.dirty, false⟩ <| .setDirty none <| .setMisses 0 <| .unlock
      (.goto (.rangeLoop f D.dirty [] []))) (.inl .rpromote)
  | build0 (D op rm) : AddOp op → D.Pub rm → D.dirty = none → Base true D op (.loadRead (dirtyMake op rm)) (.inl (.build0 (D.get rm)))
  | build (D op rm m seen) : AddOp op → D.Pub rm → D.Pub m →
      Base true D op (code (.dirtyLoop op rm m seen)) (.inl (.build (D.get rm) (D.rest m seen)))
  | buildE (D op rm m seen k e) : AddOp op → D.Pub rm → D.Pub m →
      Base true D op (code (.tryExpunge op rm m seen k e)) (.inl (.buildE (D.get rm) (D.rest m seen) k e))
  | buildC (D op rm m seen k e) : AddOp op → D.Pub rm → D.Pub m → Base true D op (.casPtr e .nil .expunged fun ok =>
        if ok then .goto (.dirtyLoop op rm m seen) else .goto (.tryExpunge op rm m seen k e)) (.inl (.buildC (D.get rm) (D.rest m seen) k e))
  | amend (D op rm) : AddOp op → D.Pub rm → Base true D op (amend op rm) (.inl (.amend (D.get rm)))
  | addCall (D k f) : Base true D (.computeIfAbsent k f) (addNew (.computeIfAbsent k f)) (.inl .addCall)
  | add (D op k v) : op.key? = some k → Base true D op (addEntry k v (MapConc.addRes v op)) (.inl (.add v))
  | unlock (D op kont t) : KRel D op kont t → Base true D op (.unlock t) (.inl (.unlock kont))
  | eload (D op e) : Base false D op (entryLoad e) (.inl (.eload e))
  | del (D op e) : Base false D op (code (.delete op e)) (.inl (.del e))
  | delCas (D op e j w) : Base false D op (.casPtr e (.cell j w) .nil fun ok => if ok then .ret (delRes (some w) op) else .goto (.delete op e))
      (.inl (.delCas e (.cell j w)))
  | iter (D f m seen vis) : D.Pub m → Base false D (.range f) (code (.rangeLoop f m seen vis)) (.inl (.iter (D.rest m seen) vis))
  | iterL (D f m seen vis kk k e c) : D.Pub m → code (.rangeLoop f m seen vis) = .mapNext m seen kk →
      (D.rest m seen)[c % (D.rest m seen).length]? = some (k, e) → Base false D (.range f) (kk (some (k, e))) (.inl (.iter (D.rest m seen) vis))
  | icall (D f m seen vis k v) : D.Pub m → Base false D (.range f) (.user fun c => if f k v c then
        .goto (.rangeLoop f m (seen ++ [k]) (vis ++ [(k, v)])) else .ret (.visited (vis ++ [(k, v)]) false))
      (.inl (.icall (D.rest m (seen ++ [k])) vis k v))

/-- The relation between a call here and there; `h` tells whether the call holds the lock. Between two `Base` points a call executes
instructions that the others do not notice. -/
inductive At : Bool → Plain K → Option (GMap K Nat) → Nat → Op K V → Cmd K V → Pt K V ⊕ Res K V → Prop
  | base {h D gd gm op t x} : Base h D op t x → (h = true → Exact D gd gm) → At h D gd gm op t x
  | ret {D gd gm op r} : At false D gd gm op (.ret r) (.inr r)
  | goto {h D gd gm op l x} : At h D gd gm op (code l) x → At h D gd gm op (.goto l) x
  | getDirty {D gd gm op k x} : At true D gd gm op (k D.dirty) x → At true D gd gm op (.getDirty k) x
  | getMisses {D gd gm op k x} : At true D gd gm op (k D.misses) x → At true D gd gm op (.getMisses k) x
  | setDirty {D gd gm op y t x} : (∀ r, y = some r → r ∉ D.pub ∧ r < D.nmaps) → At true { D with dirty := y } gd gm op t x →
      At true D gd gm op (.setDirty y t) x
  | setMisses {D gd gm op n t x} : At true { D with misses := n } gd gm op t x → At true D gd gm op (.setMisses n t) x
  | mapGet {h D gd gm op m key k x} : (h = true ∨ D.Pub m) → At h D gd gm op (k ((D.get m).get key)) x → At h D gd gm op (.mapGet m key k) x
  | mapLen {h D gd gm op m k x} : (h = true ∨ D.Pub m) → At h D gd gm op (k (D.get m).length) x → At h D gd gm op (.mapLen m k) x
  | mapSetNil {D gd gm op key e t} : At true D gd gm op (.mapSet none key e t) (.inr .panic)
  | mapSet {D gd gm op r key e t x} : D.dirty = some r → r ∉ D.pub →
      At true { D with maps := upd D.maps r ((D.maps r).set key e) } gd gm op t x → At true D gd gm op (.mapSet (some r) key e t) x
  | mapDelNil {D gd gm op key t x} : At true D gd gm op t x → At true D gd gm op (.mapDel none key t) x
  | mapDel {D gd gm op r key t x} : D.dirty = some r → r ∉ D.pub →
      At true { D with maps := upd D.maps r ((D.maps r).del key) } gd gm op t x → At true D gd gm op (.mapDel (some r) key t) x
  | newMap {D gd gm op k x} : At true { D with maps := upd D.maps D.nmaps [], nmaps := D.nmaps + 1 } gd gm op (k D.nmaps) x →
      At true D gd gm op (.newMap k) x

/-- Later plain memory: published maps are the same. -/
structure Ext (D D' : Plain K) : Prop where
  pub : ∀ r ∈ D.pub, r ∈ D'.pub
  maps : ∀ r ∈ D.pub, D'.maps r = D.maps r

omit [DecidableEq K] in
theorem Ext.refl (D : Plain K) : Ext D D := ⟨fun _ h => h, fun _ _ => rfl⟩

omit [DecidableEq K] in
theorem Ext.get {D D' : Plain K} (h : Ext D D') {m : Option Nat} (hm : D.Pub m) : D'.get m = D.get m ∧ D'.Pub m := by
  cases m with
  | none => exact ⟨rfl, fun r h => by simp at h⟩
  | some r => exact ⟨h.maps r (hm r rfl), fun r' h' => by cases h'; exact h.pub r (hm r rfl)⟩

theorem Ext.rest {D D' : Plain K} (h : Ext D D') {m : Option Nat} (hm : D.Pub m) (seen : List K) : D'.rest m seen = D.rest m seen := by
  simp only [Plain.rest, (h.get hm).1]

theorem Base.ext {D D' : Plain K} (hx : Ext D D') {op : Op K V} {t : Cmd K V} {x : Pt K V ⊕ Res K V} {h : Bool} (hf : h = false)
    (hb : Base h D op t x) : Base h D' op t x := by
  cases hb <;> try (first | constructor; done | (constructor; assumption; done) | simp at hf; done)
  case iter f m seen vis hm => rw [← hx.rest hm]; exact .iter _ _ _ _ _ (hx.get hm).2
  case iterL f m seen vis kk k e c h1 hm h2 => rw [← hx.rest hm] at h2 ⊢; exact .iterL _ _ _ _ _ _ _ _ _ (hx.get hm).2 h1 h2
  case icall f m seen vis k v hm => rw [← hx.rest hm]; exact .icall _ _ _ _ _ _ _ (hx.get hm).2

theorem At.ext {D D' : Plain K} (hx : Ext D D') {op : Op K V} {t : Cmd K V} {x : Pt K V ⊕ Res K V} {gd gd' : Option (GMap K Nat)} {gm gm' : Nat} {h : Bool}
    (hf : h = false) (ha : At h D gd gm op t x) : At h D' gd' gm' op t x := by
  induction ha <;> try (simp only [reduceCtorEq] at hf; done)
  case base hb _ => exact .base (hb.ext hx hf) (by simp [hf])
  case ret => exact .ret
  case goto ih => exact .goto (ih hx hf)
  case mapGet hm _ ih =>
    subst hf
    simp only [Bool.false_eq_true, false_or] at hm
    exact .mapGet (Or.inr (hx.get hm).2) (by rw [(hx.get hm).1]; exact ih hx rfl)
  case mapLen hm _ ih =>
    subst hf
    simp only [Bool.false_eq_true, false_or] at hm
    exact .mapLen (Or.inr (hx.get hm).2) (by rw [(hx.get hm).1]; exact ih hx rfl)

/-! ## The states -/

/-- Proof only: part of an invariant or simulation; models no code. -/
structure Glob (M : Mem K V) (g : G K V) : Prop where
  mu : g.mu = M.mu
  read : g.read = M.d.get M.read.m
  amended : g.amended = M.read.amended
  p : g.p = M.ptr
  next : g.next = M.ents
  pubR : M.d.Pub M.read.m
  exact : M.mu = none → Exact M.d g.dirty g.misses
  wf : ∀ r, (M.d.maps r).WF
  pubLt : ∀ r ∈ M.d.pub, r < M.d.nmaps
  dirtyLt : ∀ r, M.d.dirty = some r → r < M.d.nmaps

/-- The relation of a call's views. -/
def Own (M : Mem K V) (g : G K V) (i : Nat) : Option (Op K V × (Cmd K V ⊕ Res K V)) → Option (Op K V × (Pt K V ⊕ Res K V)) → Prop
  | none, y => y = none
  | some (op, .inr r), y => y = some (op, .inr r)
  | some (op, .inl t), y => ∃ x, y = some (op, x) ∧ At (decide (M.mu = some i)) M.d g.dirty g.misses op t x

/-- Proof only: part of an invariant or simulation; models no code. -/
def Rel (M : Mem K V) (g : G K V) (v : View (Op K V) (Res K V) (Cmd K V)) (w : View (Op K V) (Res K V) (Pt K V)) : Prop :=
  Glob M g ∧ ∀ i, Own M g i (v i) (w i)

/-- What the step of `i` from `M`, `g` to `M'`, `g'` does to the others. -/
structure Tr (M M' : Mem K V) (g g' : G K V) (i : Nat) : Prop where
  glob : Glob M' g'
  ext : Ext M.d M'.d
  other : ∀ j, j ≠ i → M.mu = some j → M'.mu = some j ∧ M'.d = M.d ∧ g'.dirty = g.dirty ∧ g'.misses = g.misses
  mu : ∀ j, j ≠ i → M'.mu = some j → M.mu = some j

theorem Tr.rel {M M' : Mem K V} {g g' : G K V} {i : Nat} (ht : Tr M M' g g' i) {v : View (Op K V) (Res K V) (Cmd K V)}
    {w : View (Op K V) (Res K V) (Pt K V)} (hR : Rel M g v w) {a b} (ho : Own M' g' i a b) : Rel M' g' (upd v i a) (upd w i b) := by
  refine ⟨ht.glob, fun j => ?_⟩
  by_cases hj : j = i
  · subst hj; simpa using ho
  · rw [upd_ne _ _ hj, upd_ne _ _ hj]
    have := hR.2 j
    cases hv : v j with
    | none => rw [hv] at this; exact this
    | some y =>
      obtain ⟨op, t | r⟩ := y
      · rw [hv] at this
        obtain ⟨x, h1, h2⟩ := this
        refine ⟨x, h1, ?_⟩
        by_cases hm : M.mu = some j
        · obtain ⟨e1, e2, e3, e4⟩ := ht.other j hj hm
          rw [e1, e2, e3, e4, ← hm]
          rwa [hm] at h2 ⊢
        · have hm' : M'.mu ≠ some j := fun e => hm (ht.mu j hj e)
          simp only [hm, hm', decide_false] at h2 ⊢
          exact h2.ext ht.ext rfl
      · rw [hv] at this; exact this

/-! ## Kinds of steps -/

theorem Tr.same {M : Mem K V} {g : G K V} (hG : Glob M g) (i : Nat) (f : Nat → Nat) : Tr M M g { g with calls := f } i :=
  ⟨⟨hG.mu, hG.read, hG.amended, hG.p, hG.next, hG.pubR, hG.exact, hG.wf, hG.pubLt, hG.dirtyLt⟩, .refl _, fun _ _ h => ⟨h, rfl, rfl, rfl⟩, fun _ _ h => h⟩

theorem Tr.refl {M : Mem K V} {g : G K V} (hG : Glob M g) (i : Nat) : Tr M M g g i :=
  ⟨hG, .refl _, fun _ _ h => ⟨h, rfl, rfl, rfl⟩, fun _ _ h => h⟩

theorem Tr.ptr {M : Mem K V} {g : G K V} (hG : Glob M g) (i e : Nat) (x : Ptr V) : Tr M { M with ptr := upd M.ptr e x } g (g.setP e x) i :=
  ⟨⟨hG.mu, hG.read, hG.amended, by simp [G.setP, hG.p], hG.next, hG.pubR, hG.exact, hG.wf, hG.pubLt, hG.dirtyLt⟩, .refl _,
    fun _ _ h => ⟨h, rfl, rfl, rfl⟩, fun _ _ h => h⟩

theorem Tr.held {M M' : Mem K V} {g g' : G K V} {i : Nat} (hG : Glob M' g') (hm : M.mu = some i) (hm' : M'.mu = some i ∨ M'.mu = none)
    (he : Ext M.d M'.d) : Tr M M' g g' i :=
  ⟨hG, he, fun j hj h => absurd (hm.symm.trans h) (by simp [Ne.symm hj]), fun j hj h => by rcases hm' with e | e <;> rw [e] at h <;> simp_all⟩

/-- Instructions that may be no step there. -/
def quiet (t : Cmd K V) (x : Pt K V ⊕ Res K V) : Bool :=
  match t with
  | .loadRead _ | .storeRead _ _ | .loadPtr _ _ | .storePtr _ _ _ | .casPtr _ _ _ _ | .lock _ | .unlock _ | .incMisses _ | .newEntry _ _ | .user _ => false
  | .mapNext _ _ _ => match x with
    | .inl (.iter _ _) => true
    | _ => false
  | _ => true

/-- The simulation of one step, for the call that makes it; `q` tells whether it may be no step there. -/
def StepOk (q : Bool) (M M' : Mem K V) (g : G K V) (i : Nat) (op : Op K V) (y : Cmd K V ⊕ Res K V) (x : Pt K V ⊕ Res K V) : Prop :=
  (q = true ∧ Tr M M' g g i ∧ Own M' g i (some (op, y)) (some (op, x))) ∨
  ∃ s c' g' x', x = .inl s ∧ MapConc.step g i op s c' = some (g', x') ∧ Tr M M' g g' i ∧ Own M' g' i (some (op, y)) (some (op, x'))

theorem own_inl {M : Mem K V} {g : G K V} {i : Nat} {op : Op K V} {t : Cmd K V} {x : Pt K V ⊕ Res K V} {h : Bool} (hh : h = decide (M.mu = some i))
    (ha : At h M.d g.dirty g.misses op t x) : Own M g i (some (op, .inl t)) (some (op, x)) := ⟨x, rfl, by rwa [← hh]⟩

/-- A step without the lock that only reads. -/
theorem ok_read {q : Bool} {M : Mem K V} {g : G K V} {i : Nat} {op : Op K V} {t : Cmd K V} {s : Pt K V} {x : Pt K V ⊕ Res K V} {h : Bool} (hG : Glob M g)
    (hh : h = decide (M.mu = some i)) (c : Nat) (hs : MapConc.step g i op s c = some (g, x)) (ha : At h M.d g.dirty g.misses op t x) :
    StepOk q M M g i op (.inl t) (.inl s) :=
  .inr ⟨s, c, g, x, rfl, hs, .refl hG i, own_inl hh ha⟩

theorem ok_start {q : Bool} {M : Mem K V} {g : G K V} {i : Nat} {op : Op K V} {c : Nat} {M' : Mem K V} {y} (hG : Glob M g) (hh : false = decide (M.mu = some i))
    (hst : exec M i (entry op) c = some (M', y)) : StepOk q M M' g i op y (.inl .start) := by
  have hr := hG.read
  have ha := hG.amended
  cases op <;> simp only [entry, load, store, fast, delete, range, exec, Option.some.injEq, Prod.mk.injEq] at hst <;> obtain ⟨rfl, rfl⟩ := hst <;>
    refine ok_read hG hh 0 rfl ?_ <;> simp only [MapConc.startStep, hr, ha]
  case range f =>
    split
    · exact .base (.lock _ _) (by simp)
    · refine .goto (.base ?_ (by simp))
      have := Base.iter (V := V) M.d f M.read.m [] [] hG.pubR
      simpa [Plain.rest] using this
  all_goals
    refine .mapGet (Or.inr hG.pubR) ?_
    cases (M.d.get M.read.m).get _ <;> simp only
  case load.none => split <;> [exact .base (.lock _ (.load _)) (by simp); exact .ret]
  case load.some => exact .base (.eload _ _ _) (by simp)
  case loadAndDelete.none => split <;> [exact .base (.lock _ (.loadAndDelete _)) (by simp); exact .ret]
  case loadAndDelete.some => exact .goto (.base (.del _ _ _) (by simp))
  case delete.none => split <;> [exact .base (.lock _ (.delete _)) (by simp); exact .ret]
  case delete.some => exact .goto (.base (.del _ _ _) (by simp))
  case store.none => exact .base (.lock _ (.store _ _)) (by simp)
  case store.some => exact .goto (.base (.try' _ _ _ _ _ (.store ..)) (by simp))
  case loadOrStore.none => exact .base (.lock _ (.loadOrStore _ _)) (by simp)
  case loadOrStore.some => exact .goto (.base (.try' _ _ .free _ _ (.los ..)) (by simp))
  case computeIfAbsent.none => exact .base (.lock _ (.computeIfAbsent _ _)) (by simp)
  case computeIfAbsent.some => exact .goto (.base (.try' _ _ .free _ _ (.cia ..)) (by simp))
  case computeIfPresent.none => exact .base (.lock _ (.computeIfPresent _ _)) (by simp)
  case computeIfPresent.some => exact .goto (.base (.try' _ _ .free _ _ (.cip ..)) (by simp))

theorem ok_lock {q : Bool} {M : Mem K V} {g : G K V} {i : Nat} {op : Op K V} {c : Nat} {M' : Mem K V} {y} (hG : Glob M g) 
    (hst : exec M i (slowOf op) c = some (M', y)) : StepOk q M M' g i op y (.inl .lock) := by
  have key : ∀ t, slowOf op = .lock t → M.mu = none ∧ M' = { M with mu := some i } ∧ y = .inl t := by
    intro t ht
    rw [ht] at hst
    simp only [exec] at hst
    split at hst
    · simp at hst
    · rename_i hn
      simp only [Option.some.injEq, Prod.mk.injEq] at hst
      exact ⟨by simpa using hn, hst.1.symm, hst.2.symm⟩
  have : ∃ t, slowOf op = .lock t := by cases op <;> exact ⟨_, rfl⟩
  obtain ⟨t, ht⟩ := this
  obtain ⟨h1, rfl, rfl⟩ := key t ht
  refine .inr ⟨.lock, 0, { g with mu := some i }, .inl .locked, rfl, by simp [MapConc.step, hG.mu, h1], ?_, ?_⟩
  · refine ⟨⟨rfl, hG.read, hG.amended, hG.p, hG.next, hG.pubR, by simp, hG.wf, hG.pubLt, hG.dirtyLt⟩, .refl _, fun j hj h => ?_, fun j hj h => ?_⟩
    · rw [h1] at h; simp at h
    · simp only [Option.some.injEq] at h; exact absurd h.symm hj
  · exact own_inl (h := true) (by simp) (.base (.locked _ _ _ ht) fun _ => hG.exact h1)

/-- What `try...` does after it has returned. -/
theorem at_finish {D : Plain K} {gd gm} {op : Op K V} (md : Mode) (r : Res K V) (ok : Bool) (x : Pt K V ⊕ Res K V) (hE : Mode.held md = true → Exact D gd gm)
    (hx : x = if ok = false ∧ md = .free then .inl .lock else MapConc.after md r) : At (Mode.held md) D gd gm op (finish (slowOf op) md r ok) x := by
  subst hx
  cases md with
  | free =>
    cases ok
    · exact .base (.lock _ _) (by simp [Mode.held])
    · exact .ret
  | inRead => simpa [finish, MapConc.after, Mode.held] using At.base (.unlock _ _ _ _ (.ret r)) hE
  | inDirty => simpa [finish, MapConc.after, Mode.held] using At.base (.miss _ _ _ _ (.ret r)) hE

theorem ok_try {q : Bool} {M : Mem K V} {g : G K V} {i : Nat} {op : Op K V} {c : Nat} {M' : Mem K V} {y md e l} (hG : Glob M g) (hh : Mode.held md = decide (M.mu = some i))
    (hE : Mode.held md = true → Exact M.d g.dirty g.misses) (ht : TryRel op md e l)
    (hst : exec M i (code l) c = some (M', y)) : StepOk q M M' g i op y (.inl (.tryLoad md e)) := by
  have hp := hG.p
  cases ht <;> simp only [code, exec, Option.some.injEq, Prod.mk.injEq] at hst <;> obtain ⟨rfl, rfl⟩ := hst <;>
    refine ok_read hG hh 0 rfl ?_ <;> simp only [hp]
  case store k v =>
    cases M.ptr e <;> simp [MapConc.first, MapConc.decide']
    · exact .base (.casS ..) hE
    · exact .base (.lock _ (.store k v)) hE
    · exact .base (.casS ..) hE
  case los k v =>
    cases M.ptr e <;> simp only [MapConc.first, MapConc.decide']
    · exact .goto (.base (.casL ..) hE)
    · refine at_finish (op := .loadOrStore k v) md _ _ _ hE ?_
      cases md <;> simp [MapConc.after, MapConc.failRes]
    · refine at_finish (op := .loadOrStore k v) md _ _ _ hE ?_
      simp
  case cia k f =>
    cases M.ptr e <;> simp only [MapConc.first, MapConc.decide']
    · exact .base (.callA ..) hE
    · refine at_finish (op := .computeIfAbsent k f) md _ _ _ hE ?_
      cases md <;> simp [MapConc.after, MapConc.failRes]
    · refine at_finish (op := .computeIfAbsent k f) md _ _ _ hE ?_
      simp
  case cip k f =>
    cases M.ptr e <;> simp only [MapConc.first, MapConc.decide']
    · refine at_finish (op := .computeIfPresent k f) md _ _ _ hE ?_
      simp
    · refine at_finish (op := .computeIfPresent k f) md _ _ _ hE ?_
      cases md <;> simp [MapConc.after, MapConc.failRes]
    · exact .base (.callP ..) hE

theorem ok_call {q : Bool} {M : Mem K V} {g : G K V} {i : Nat} {op : Op K V} {c : Nat} {h : Bool} {s : Pt K V} {x : V × Option V} {md e p l} (hG : Glob M g)
    (hh : h = decide (M.mu = some i)) (hs : s = .call md e p) (hc : MapConc.callF op p c = some x)
    (ha : At h M.d g.dirty g.misses op (code l) (.inl (.cas md e p x))) : StepOk q M M g i op (.inl (.goto l)) (.inl s) := by
  subst hs
  exact .inr ⟨_, c, _, _, rfl, by simp only [MapConc.step, hc], .same hG i (upd g.calls i (g.calls i + 1)), own_inl hh (.goto ha)⟩

/-- A compare-and-swap of `try...` -/
theorem ok_cas {q : Bool} {M : Mem K V} {g : G K V} {i : Nat} {op : Op K V} {c : Nat} {M' : Mem K V} {y md e p} {x : V × Option V} {kk : Bool → Cmd K V} (hG : Glob M g)
    (hh : Mode.held md = decide (M.mu = some i)) (hst : exec M i (.casPtr e p (.var x.1) kk) c = some (M', y))
    (h1 : At (Mode.held md) M.d g.dirty g.misses op (kk true) (MapConc.after md (MapConc.okRes x op)))
    (h2 : At (Mode.held md) M.d g.dirty g.misses op (kk false) (.inl (.reload md e x))) : StepOk q M M' g i op y (.inl (.cas md e p x)) := by
  simp only [exec] at hst
  split at hst <;> simp only [Option.some.injEq, Prod.mk.injEq] at hst <;> obtain ⟨rfl, rfl⟩ := hst
  · rename_i he
    exact .inr ⟨_, 0, _, _, rfl, by simp only [MapConc.step, hG.p, he, if_true, New.ptr], .ptr hG i e _, own_inl hh h1⟩
  · rename_i he
    exact .inr ⟨_, 0, _, _, rfl, by simp only [MapConc.step, hG.p, he, if_false], .refl hG i, own_inl hh h2⟩

theorem KRel.ext {D D' : Plain K} (hx : Ext D D') {op : Op K V} {kont t} (h : KRel D op kont t) : KRel D' op kont t := by
  cases h with
  | ret r => exact .ret r
  | eload e h => exact .eload e h
  | del e h => exact .del e h
  | iter f m h1 h2 => rw [← (hx.get h2).1]; exact .iter f m h1 (hx.get h2).2

theorem Exact.getD {D : Plain K} {gd gm} (h : Exact D gd gm) : gd.getD [] = D.get D.dirty := by
  rw [h.dirty]; cases D.dirty <;> rfl

/-- A write to a map that is not published. -/
theorem ext_maps (D : Plain K) (r : Nat) (hr : r ∉ D.pub) (x : GMap K Nat) (dd : Option Nat) (mm n : Nat) :
    Ext D { D with maps := upd D.maps r x, dirty := dd, misses := mm, nmaps := n } :=
  ⟨fun _ h => h, fun r' h => upd_ne _ _ (by rintro rfl; exact hr h)⟩

theorem ext_pub (D : Plain K) (l : List Nat) (dd : Option Nat) (mm : Nat) : Ext D { D with dirty := dd, misses := mm, pub := l ++ D.pub } :=
  ⟨fun _ h => by simp [h], fun _ _ => rfl⟩

theorem ok_unexp {q : Bool} {M : Mem K V} {g : G K V} {i : Nat} {op : Op K V} {c : Nat} {M' : Mem K V} {y k e t} (hG : Glob M g) (hm : M.mu = some i)
    (hE : Exact M.d g.dirty g.misses) (hu : UnexpRel op k e t)
    (hst : exec M i (unexpunge k e t) c = some (M', y)) : StepOk q M M' g i op y (.inl (.unexp e)) := by
  have hk : op.key? = some k := by cases hu <;> rfl
  have ht : ∀ D gd gm, Exact D gd gm → At true D gd gm op t (.inl (MapConc.afterUnexp op e)) := by
    intro D gd gm hE
    cases hu with
    | store => exact .base (.storeLocked ..) fun _ => hE
    | los => exact .goto (.base (.try' _ _ .inRead _ _ (.los ..)) fun _ => hE)
    | cia => exact .goto (.base (.try' _ _ .inRead _ _ (.cia ..)) fun _ => hE)
    | cip => exact .goto (.base (.try' _ _ .inRead _ _ (.cip ..)) fun _ => hE)
  simp only [unexpunge, exec] at hst
  split at hst <;> simp only [Option.some.injEq, Prod.mk.injEq] at hst <;> obtain ⟨rfl, rfl⟩ := hst
  · rename_i he
    cases hd : M.d.dirty with
    | none =>
      refine .inr ⟨_, 0, g.setP e .nil, .inr .panic, rfl, ?_, .ptr hG i e _, own_inl (h := true) (by simp [hm]) ?_⟩
      · simp [MapConc.step, hG.p, he, hk, G.setDirty, G.setP, hE.dirty, hd]
      · simp only [if_true]
        exact .getDirty (by simp only [hd]; exact .mapSetNil)
    | some r =>
      refine .inr ⟨_, 0, { g.setP e .nil with dirty := some ((M.d.maps r).set k e) }, .inl (MapConc.afterUnexp op e), rfl, ?_, ?_, own_inl (h := true) (by simp [hm]) ?_⟩
      · simp [MapConc.step, hG.p, he, hk, G.setDirty, G.setP, hE.dirty, hd]
      · have := (Tr.ptr hG i e .nil).glob
        exact .held ⟨this.mu, this.read, this.amended, this.p, this.next, this.pubR, by simp [hm], this.wf, this.pubLt, this.dirtyLt⟩ hm (Or.inl hm) (.refl _)
      · simp only [if_true]
        refine .getDirty ?_
        simp only [hd]
        refine .mapSet hd (hE.priv r hd) (ht _ _ _ ⟨?_, hE.misses, hE.priv⟩)
        simp [hd]
  · rename_i he
    refine ok_read hG (h := true) (by simp [hm]) 0 (by simp only [MapConc.step, hG.p, he, if_false]; rfl) ?_
    exact ht _ _ _ hE

theorem ok_miss {q : Bool} {M : Mem K V} {g : G K V} {i : Nat} {op : Op K V} {c : Nat} {M' : Mem K V} {y kont t} (hG : Glob M g) (hm : M.mu = some i)
    (hE : Exact M.d g.dirty g.misses) (hk : KRel M.d op kont t)
    (hst : exec M i (missLocked (.unlock t)) c = some (M', y)) : StepOk q M M' g i op y (.inl (.miss kont)) := by
  simp only [missLocked, exec, Option.some.injEq, Prod.mk.injEq] at hst
  obtain ⟨rfl, rfl⟩ := hst
  have hx : Ext M.d { M.d with misses := M.d.misses + 1 } := ⟨fun _ h => h, fun _ _ => rfl⟩
  have hE' : Exact { M.d with misses := M.d.misses + 1 } g.dirty (g.misses + 1) := ⟨hE.dirty, by rw [hE.misses], hE.priv⟩
  refine .inr ⟨_, 0, { g with misses := g.misses + 1 }, _, rfl, rfl, ?_, own_inl (h := true) (by simp [hm]) ?_⟩
  · exact .held ⟨hG.mu, hG.read, hG.amended, hG.p, hG.next, hG.pubR, by simp [hm], hG.wf, hG.pubLt, hG.dirtyLt⟩ hm (Or.inl hm) hx
  · refine .getMisses (.getDirty (.mapLen (Or.inl rfl) ?_))
    have e1 : (M.d.misses + 1 < (Plain.get { M.d with misses := M.d.misses + 1 } M.d.dirty).length) ↔ g.misses + 1 < (g.dirty.getD []).length := by
      rw [hE.misses, hE.getD]; rfl
    simp only
    by_cases hc : g.misses + 1 < (g.dirty.getD []).length
    · rw [if_pos (e1.2 hc), if_pos hc]
      exact .base (.unlock _ _ _ _ (hk.ext hx)) fun _ => hE'
    · rw [if_neg (fun h => hc (e1.1 h)), if_neg hc]
      exact .getDirty (.base (.promote _ _ _ _ (hk.ext hx)) fun _ => hE')

/-- The stores to `m.read` of a promotion. -/
theorem ok_promote {q : Bool} {M : Mem K V} {g : G K V} {i : Nat} {op : Op K V} {c : Nat} {M' : Mem K V} {y kont t s} (hG : Glob M g) (hm : M.mu = some i)
    (hE : Exact M.d g.dirty g.misses) (hs : MapConc.step g i op s 0 = some (g.promoted, .inl (.unlock kont)))
    (hk : KRel { M.d with dirty := none, misses := 0, pub := M.d.dirty.toList ++ M.d.pub } op kont t)
    (hst : exec M i (.storeRead ⟨M.d.dirty, false⟩ <| .setDirty none <| .setMisses 0 <| .unlock t) c = some (M', y)) : StepOk q M M' g i op y (.inl s) := by
  simp only [exec, Option.some.injEq, Prod.mk.injEq] at hst
  obtain ⟨rfl, rfl⟩ := hst
  refine .inr ⟨_, 0, g.promoted, _, rfl, hs, ?_, own_inl (h := true) (by simp [hm]) ?_⟩
  · refine .held ⟨hG.mu, ?_, rfl, hG.p, hG.next, ?_, by simp [hm], hG.wf, ?_, hG.dirtyLt⟩ hm (Or.inl hm) (ext_pub _ _ _ _)
    · simp only [G.promoted, hE.getD]; rfl
    · intro r h; simp at h; simp [h]
    · intro r h
      simp only [List.mem_append, Option.mem_toList] at h
      exact h.elim (hG.dirtyLt r) (hG.pubLt r)
  · refine .setDirty (by simp) (.setMisses (.base (.unlock _ _ _ _ hk) fun _ => ⟨rfl, rfl, by simp⟩))

theorem filter_erase {l : List (K × Nat)} (hn : (l.map (·.1)).Nodup) {n : Nat} {k : K} {e : Nat} (h : l[n]? = some (k, e)) :
    l.eraseIdx n = l.filter fun x => decide (x.1 ≠ k) := by
  induction l generalizing n with
  | nil => simp at h
  | cons a l ih =>
    simp only [List.map_cons, List.nodup_cons] at hn
    cases n with
    | zero =>
      simp only [List.getElem?_cons_zero, Option.some.injEq] at h
      subst h
      simp only [List.eraseIdx_zero, List.tail_cons, ne_eq, not_true_eq_false, decide_false, Bool.false_eq_true, not_false_eq_true, List.filter_cons_of_neg]
      refine (List.filter_eq_self.2 fun x hx => ?_).symm
      simp only [decide_eq_true_eq]
      rintro rfl
      exact hn.1 (List.mem_map.2 ⟨x, hx, rfl⟩)
    | succ n =>
      simp only [List.getElem?_cons_succ] at h
      have : a.1 ≠ k := fun e' => hn.1 (List.mem_map.2 ⟨_, List.mem_of_getElem? h, by simp [e']⟩)
      simp only [List.eraseIdx_cons_succ, ih hn.2 h, ne_eq, this, not_false_eq_true, decide_true, List.filter_cons_of_pos]

theorem rest_erase {D : Plain K} (hw : ∀ r, (D.maps r).WF) {m seen n k e} (h : (D.rest m seen)[n]? = some (k, e)) :
    (D.rest m seen).eraseIdx n = D.rest m (seen ++ [k]) := by
  have hn : ((D.rest m seen).map (·.1)).Nodup := by
    refine List.Nodup.sublist (List.filter_sublist.map _) (l₂ := (D.get m).map (·.1)) ?_
    cases m with
    | none => simp [Plain.get]
    | some r => exact hw r
  rw [filter_erase hn h]
  simp only [Plain.rest, List.filter_filter]
  refine List.filter_congr fun x _ => ?_
  by_cases h1 : x.1 = k <;> by_cases h2 : x.1 ∈ seen <;> simp [h1, h2]

theorem step_build {g : G K V} {i : Nat} {op : Op K V} {rm todo : List (K × Nat)} {c : Nat} {x : K × Nat} (h : todo ≠ [])
    (hx : todo[c % todo.length]? = some x) :
    MapConc.step g i op (.build rm todo) c = some (g, .inl (.buildE rm (todo.eraseIdx (c % todo.length)) x.1 x.2)) := by
  cases todo with
  | nil => exact absurd rfl h
  | cons a l => simp only [MapConc.step, hx]

theorem step_iter {g : G K V} {i : Nat} {op : Op K V} {todo : List (K × Nat)} {vis : List (K × V)} {c : Nat} {x : K × Nat}
    (hx : todo[c % todo.length]? = some x) :
    MapConc.step g i op (.iter todo vis) c = some (g, .inl (match g.p x.2 with
      | .cell _ v => .icall (todo.eraseIdx (c % todo.length)) vis x.1 v
      | _ => .iter (todo.eraseIdx (c % todo.length)) vis)) := by
  cases todo with
  | nil => simp at hx
  | cons a l =>
    simp only [MapConc.step, hx]
    cases g.p x.2 <;> rfl

theorem ok_build0 {q : Bool} {M : Mem K V} {g : G K V} {i : Nat} {op : Op K V} {c : Nat} {M' : Mem K V} {y rm} (hG : Glob M g) (hm : M.mu = some i)
    (hE : Exact M.d g.dirty g.misses) (ho : AddOp op) (hp : M.d.Pub rm) (hd : M.d.dirty = none)
    (hst : exec M i (.loadRead (dirtyMake op rm)) c = some (M', y)) : StepOk q M M' g i op y (.inl (.build0 (M.d.get rm))) := by
  simp only [exec, Option.some.injEq, Prod.mk.injEq] at hst
  obtain ⟨rfl, rfl⟩ := hst
  have hn : M.d.nmaps ∉ M.d.pub := fun h => Nat.lt_irrefl _ (hG.pubLt _ h)
  refine .inr ⟨_, 0, { g with dirty := some [] }, .inl (.build (M.d.get rm) g.read), rfl, by simp [MapConc.step, hE.dirty, hd], ?_,
    own_inl (h := true) (by simp [hm]) ?_⟩
  · exact .held ⟨hG.mu, hG.read, hG.amended, hG.p, hG.next, hG.pubR, by simp [hm], hG.wf, hG.pubLt, hG.dirtyLt⟩ hm (Or.inl hm) (.refl _)
  · refine .mapLen (Or.inl rfl) (.newMap (.setDirty ?_ (.goto (.base ?_ fun _ => ⟨?_, hE.misses, ?_⟩))))
    · intro r hr; cases hr; exact ⟨hn, Nat.lt_succ_self _⟩
    · have hx := ext_maps M.d M.d.nmaps hn [] (some M.d.nmaps) M.d.misses (M.d.nmaps + 1)
      rw [hG.read, ← (hx.get hp).1, ← (hx.get hG.pubR).1]
      have := Base.build (V := V) _ op rm M.read.m [] ho (hx.get hp).2 (hx.get hG.pubR).2
      simpa [Plain.rest] using this
    · simp
    · intro r hr; cases hr; exact hn

theorem ok_build {q : Bool} {M : Mem K V} {g : G K V} {i : Nat} {op : Op K V} {c : Nat} {M' : Mem K V} {y rm m seen} (hG : Glob M g) (hm : M.mu = some i)
    (hE : Exact M.d g.dirty g.misses) (ho : AddOp op) (hp : M.d.Pub rm) (hp' : M.d.Pub m)
    (hst : exec M i (code (.dirtyLoop op rm m seen)) c = some (M', y)) : StepOk q M M' g i op y (.inl (.build (M.d.get rm) (M.d.rest m seen))) := by
  simp only [code, exec] at hst
  split at hst
  · rename_i hr
    simp only [Option.some.injEq, Prod.mk.injEq] at hst
    obtain ⟨rfl, rfl⟩ := hst
    exact ok_read hG (h := true) (by simp [hm]) 0 (by simp only [MapConc.step, hr]) (.base (.amend _ _ _ ho hp) fun _ => hE)
  · rename_i hr
    split at hst
    · simp at hst
    · rename_i z hz
      obtain ⟨k, e⟩ := z
      simp only [Option.some.injEq, Prod.mk.injEq] at hst
      obtain ⟨rfl, rfl⟩ := hst
      refine ok_read hG (h := true) (x := .inl (.buildE (M.d.get rm) (M.d.rest m (seen ++ [k])) k e)) (by simp [hm]) c ?_ (.goto (.base (.buildE _ _ _ _ _ _ _ ho hp hp') fun _ => hE))
      rw [← rest_erase hG.wf hz]
      exact step_build hr hz

theorem ok_buildE {q : Bool} {M : Mem K V} {g : G K V} {i : Nat} {op : Op K V} {c : Nat} {M' : Mem K V} {y rm m seen k e} (hG : Glob M g) (hm : M.mu = some i)
    (hE : Exact M.d g.dirty g.misses) (ho : AddOp op) (hp : M.d.Pub rm) (hp' : M.d.Pub m)
    (hst : exec M i (code (.tryExpunge op rm m seen k e)) c = some (M', y)) : StepOk q M M' g i op y (.inl (.buildE (M.d.get rm) (M.d.rest m seen) k e)) := by
  simp only [code, exec, Option.some.injEq, Prod.mk.injEq] at hst
  obtain ⟨rfl, rfl⟩ := hst
  cases hq : M.ptr e with
  | nil =>
    exact ok_read hG (h := true) (by simp [hm]) 0 (by simp only [MapConc.step, hG.p, hq]) (.base (.buildC _ _ _ _ _ _ _ ho hp hp') fun _ => hE)
  | expunged =>
    exact ok_read hG (h := true) (by simp [hm]) 0 (by simp only [MapConc.step, hG.p, hq]) (.goto (.base (.build _ _ _ _ _ ho hp hp') fun _ => hE))
  | cell j w =>
    cases hd : M.d.dirty with
    | none =>
      refine ok_read hG (h := true) (x := .inr .panic) (by simp [hm]) 0 (by simp [MapConc.step, hG.p, hq, G.setDirty, hE.dirty, hd]) ?_
      exact .getDirty (by simp only [hd]; exact .mapSetNil)
    | some r =>
      refine .inr ⟨_, 0, { g with dirty := some ((M.d.maps r).set k e) }, .inl (.build (M.d.get rm) (M.d.rest m seen)), rfl, ?_, ?_, own_inl (h := true) (by simp [hm]) ?_⟩
      · simp [MapConc.step, hG.p, hq, G.setDirty, hE.dirty, hd]
      · exact .held ⟨hG.mu, hG.read, hG.amended, hG.p, hG.next, hG.pubR, by simp [hm], hG.wf, hG.pubLt, hG.dirtyLt⟩ hm (Or.inl hm) (.refl _)
      · refine .getDirty ?_
        simp only [hd]
        have hr := hE.priv r hd
        have hx : Ext M.d { M.d with maps := upd M.d.maps r ((M.d.maps r).set k e) } := ext_maps M.d r hr _ _ _ _
        refine .mapSet hd hr (.goto (.base ?_ fun _ => ⟨?_, hE.misses, hE.priv⟩))
        · rw [← (hx.get hp).1, ← hx.rest hp']
          exact .build _ _ _ _ _ ho (hx.get hp).2 (hx.get hp').2
        · simp [hd]

theorem ok_buildC {q : Bool} {M : Mem K V} {g : G K V} {i : Nat} {op : Op K V} {c : Nat} {M' : Mem K V} {y rm m seen k e} (hG : Glob M g) (hm : M.mu = some i)
    (hE : Exact M.d g.dirty g.misses) (ho : AddOp op) (hp : M.d.Pub rm) (hp' : M.d.Pub m)
    (hst : exec M i (.casPtr e .nil .expunged fun ok => if ok then .goto (.dirtyLoop op rm m seen) else .goto (.tryExpunge op rm m seen k e)) c = some (M', y)) :
    StepOk q M M' g i op y (.inl (.buildC (M.d.get rm) (M.d.rest m seen) k e)) := by
  simp only [exec] at hst
  split at hst <;> simp only [Option.some.injEq, Prod.mk.injEq] at hst <;> obtain ⟨rfl, rfl⟩ := hst
  · rename_i he
    exact .inr ⟨_, 0, _, _, rfl, by simp only [MapConc.step, hG.p, he, if_true, New.ptr], .ptr hG i e _, own_inl (h := true) (by simp [hm])
      (.goto (.base (.build _ _ _ _ _ ho hp hp') fun _ => hE))⟩
  · rename_i he
    exact .inr ⟨_, 0, _, _, rfl, by simp only [MapConc.step, hG.p, he, if_false], .refl hG i, own_inl (h := true) (by simp [hm])
      (.goto (.base (.buildE _ _ _ _ _ _ _ ho hp hp') fun _ => hE))⟩

theorem at_addNew {D : Plain K} {gd gm} {op : Op K V} (hE : Exact D gd gm) (ho : AddOp op) :
    ∃ s, MapConc.afterAmend op = some s ∧ At true D gd gm op (addNew op) (.inl s) := by
  cases op with
  | store k v => exact ⟨_, rfl, .base (.add _ (.store k v) k v rfl) fun _ => hE⟩
  | loadOrStore k v => exact ⟨_, rfl, .base (.add _ (.loadOrStore k v) k v rfl) fun _ => hE⟩
  | computeIfAbsent k f => exact ⟨_, rfl, .base (.addCall ..) fun _ => hE⟩
  | _ => exact absurd ho id

theorem ok_amend {q : Bool} {M : Mem K V} {g : G K V} {i : Nat} {op : Op K V} {c : Nat} {M' : Mem K V} {y rm} (hG : Glob M g) (hm : M.mu = some i)
    (hE : Exact M.d g.dirty g.misses) (ho : AddOp op) (hp : M.d.Pub rm)
    (hst : exec M i (amend op rm) c = some (M', y)) : StepOk q M M' g i op y (.inl (.amend (M.d.get rm))) := by
  simp only [amend, exec, Option.some.injEq, Prod.mk.injEq] at hst
  obtain ⟨rfl, rfl⟩ := hst
  have hpub : ∀ r, r ∈ rm.toList ++ M.d.pub → r ∈ M.d.pub := by
    intro r hr
    simp only [List.mem_append, Option.mem_toList] at hr
    exact hr.elim (fun h => hp r h) id
  have hE' : Exact { M.d with pub := rm.toList ++ M.d.pub } g.dirty g.misses := ⟨hE.dirty, hE.misses, fun r h h' => hE.priv r h (hpub r h')⟩
  obtain ⟨s, h1, h2⟩ := at_addNew hE' ho
  refine .inr ⟨_, 0, { g with read := M.d.get rm, amended := true }, .inl s, rfl, by simp only [MapConc.step, h1], ?_, own_inl (h := true) (by simp [hm]) h2⟩
  refine .held ⟨hG.mu, rfl, rfl, hG.p, hG.next, fun r h => ?_, by simp [hm], hG.wf, fun r h => hG.pubLt r (hpub r h), hG.dirtyLt⟩ hm (Or.inl hm)
    (ext_pub _ _ _ _)
  simp only [List.mem_append, Option.mem_toList]
  exact Or.inl h

theorem ok_add {q : Bool} {M : Mem K V} {g : G K V} {i : Nat} {op : Op K V} {c : Nat} {M' : Mem K V} {y k v} (hG : Glob M g) (hm : M.mu = some i)
    (hE : Exact M.d g.dirty g.misses) (hk : op.key? = some k) (hd : g.dirty ≠ none)
    (hst : exec M i (addEntry k v (MapConc.addRes v op)) c = some (M', y)) : StepOk q M M' g i op y (.inl (.add v)) := by
  simp only [addEntry, exec, Option.some.injEq, Prod.mk.injEq] at hst
  obtain ⟨rfl, rfl⟩ := hst
  rw [hE.dirty] at hd
  cases hd' : M.d.dirty with
  | none => simp [hd'] at hd
  | some r =>
    refine .inr ⟨_, 0, { g with dirty := some ((M.d.maps r).set k g.next), p := upd g.p g.next (.cell i v), next := g.next + 1, key := upd g.key g.next (some k) },
      .inl (.unlock (.ret (MapConc.addRes v op))), rfl, ?_, ?_, own_inl (h := true) (by simp [hm]) ?_⟩
    · simp [MapConc.step, hk, G.setDirty, hE.dirty, hd']
    · exact .held ⟨hG.mu, hG.read, hG.amended, by simp [hG.p, hG.next], by simp [hG.next], hG.pubR, by simp [hm], hG.wf, hG.pubLt, hG.dirtyLt⟩ hm (Or.inl hm) (.refl _)
    · refine .getDirty ?_
      simp only [hd']
      refine .mapSet hd' (hE.priv r hd') (.base (.unlock _ _ _ _ (.ret _)) fun _ => ⟨?_, hE.misses, hE.priv⟩)
      simp [hd', hG.next]

theorem at_krel {D : Plain K} {gd gm} {op : Op K V} {kont t} (hk : KRel D op kont t) : At false D gd gm op t kont.go := by
  cases hk with
  | ret r => exact .ret
  | eload e h => exact .base (.eload ..) (by simp)
  | del e h => exact .goto (.base (.del ..) (by simp))
  | iter f m h1 h2 =>
    subst h1
    refine .goto (.base ?_ (by simp))
    have := Base.iter (V := V) D f m [] [] h2
    simpa [Plain.rest, Cont.go] using this

theorem ok_unlock {q : Bool} {M : Mem K V} {g : G K V} {i : Nat} {op : Op K V} {c : Nat} {M' : Mem K V} {y kont t} (hG : Glob M g) (hm : M.mu = some i)
    (hE : Exact M.d g.dirty g.misses) (hk : KRel M.d op kont t)
    (hst : exec M i (.unlock t) c = some (M', y)) : StepOk q M M' g i op y (.inl (.unlock kont)) := by
  simp only [exec, Option.some.injEq, Prod.mk.injEq] at hst
  obtain ⟨rfl, rfl⟩ := hst
  refine .inr ⟨_, 0, { g with mu := none }, kont.go, rfl, rfl, ?_, own_inl (h := false) (by simp) (at_krel hk)⟩
  exact .held ⟨rfl, hG.read, hG.amended, hG.p, hG.next, hG.pubR, fun _ => hE, hG.wf, hG.pubLt, hG.dirtyLt⟩ hm (Or.inr rfl) (.refl _)

theorem ok_locked {q : Bool} {M : Mem K V} {g : G K V} {i : Nat} {op : Op K V} {c : Nat} {M' : Mem K V} {y t} (hG : Glob M g) (hm : M.mu = some i)
    (hE : Exact M.d g.dirty g.misses) (hc : g.amended = false → g.dirty = none) (ht : slowOf op = .lock t)
    (hst : exec M i t c = some (M', y)) : StepOk q M M' g i op y (.inl .locked) := by
  have hr := hG.read
  have ha := hG.amended
  have hh : true = decide (M.mu = some i) := by simp [hm]
  have hdg : ∀ k, g.dirtyGet k = (M.d.get M.d.dirty).get k := fun k => by simp only [G.dirtyGet, hE.getD]
  have hdn : M.read.amended = false → M.d.dirty = none := fun h => by
    have := hc (ha.trans h)
    rw [hE.dirty] at this
    simpa using this
  have addCase : ∀ op : Op K V, AddOp op → ∃ s, MapConc.afterAmend op = some s ∧ At true M.d g.dirty g.misses op
      (if M.read.amended then addNew op else dirtyLocked op M.read.m) (.inl (if M.read.amended then s else .build0 (M.d.get M.read.m))) := by
    intro op ho
    obtain ⟨s, h1, h2⟩ := at_addNew hE ho
    refine ⟨s, h1, ?_⟩
    cases hb : M.read.amended
    · refine .getDirty ?_
      simp only [hdn hb]
      exact .base (.build0 _ _ _ ho hG.pubR (hdn hb)) fun _ => hE
    · exact h2
  cases op <;> simp only [slowOf, loadSlow, storeSlow, loadOrStoreSlow, computeIfAbsentSlow, computeIfPresentSlow, slow, deleteSlow, rangeSlow, Cmd.lock.injEq] at ht <;>
    subst ht <;> simp only [exec, Option.some.injEq, Prod.mk.injEq] at hst <;> obtain ⟨rfl, rfl⟩ := hst
  case range f =>
    refine ok_read hG hh 0 rfl ?_
    simp only [MapConc.lockedStep, hr, ha]
    cases hb : M.read.amended
    · exact .base (.unlock _ _ _ _ (.iter f _ rfl hG.pubR)) fun _ => hE
    · exact .getDirty (.base (.rpromote _ f) fun _ => hE)
  case load k =>
    refine ok_read hG hh 0 (x := .inl (MapConc.lockedStep g (.load k)).2) (by simp only [MapConc.step, MapConc.lockedStep]; grind) (.mapGet (Or.inr hG.pubR) ?_)
    simp only [MapConc.lockedStep, hr, ha, hdg]
    cases (M.d.get M.read.m).get k with
    | some e => exact .base (.unlock _ _ _ _ (.eload e ⟨k, rfl⟩)) fun _ => hE
    | none =>
      cases hb : M.read.amended
      · exact .base (.unlock _ _ _ _ (.ret _)) fun _ => hE
      · refine .getDirty (.mapGet (Or.inl rfl) ?_)
        cases (M.d.get M.d.dirty).get k with
        | some e => exact .base (.miss _ _ _ _ (.eload e ⟨k, rfl⟩)) fun _ => hE
        | none => exact .base (.miss _ _ _ _ (.ret _)) fun _ => hE
  case store k v =>
    refine ok_read hG hh 0 (x := .inl (MapConc.lockedStep g (.store k v)).2) (by simp only [MapConc.step, MapConc.lockedStep]; grind) (.mapGet (Or.inr hG.pubR) ?_)
    simp only [MapConc.lockedStep, hr, ha, hdg]
    cases (M.d.get M.read.m).get k with
    | some e => exact .base (.unexp _ _ _ _ _ (.store ..)) fun _ => hE
    | none =>
      refine .getDirty (.mapGet (Or.inl rfl) ?_)
      cases (M.d.get M.d.dirty).get k with
      | some e => exact .base (.storeLocked ..) fun _ => hE
      | none =>
        obtain ⟨s, h1, h2⟩ := addCase (.store k v) trivial
        cases h1
        exact h2
  case loadOrStore k v =>
    refine ok_read hG hh 0 (x := .inl (MapConc.lockedStep g (.loadOrStore k v)).2) (by simp only [MapConc.step, MapConc.lockedStep]; grind) (.mapGet (Or.inr hG.pubR) ?_)
    simp only [MapConc.lockedStep, hr, ha, hdg]
    cases (M.d.get M.read.m).get k with
    | some e => exact .base (.unexp _ _ _ _ _ (.los ..)) fun _ => hE
    | none =>
      refine .getDirty (.mapGet (Or.inl rfl) ?_)
      cases (M.d.get M.d.dirty).get k with
      | some e => exact .goto (.base (.try' _ _ .inDirty _ _ (.los ..)) fun _ => hE)
      | none =>
        obtain ⟨s, h1, h2⟩ := addCase (.loadOrStore k v) trivial
        cases h1
        exact h2
  case computeIfAbsent k f =>
    refine ok_read hG hh 0 (x := .inl (MapConc.lockedStep g (.computeIfAbsent k f)).2) (by simp only [MapConc.step, MapConc.lockedStep]; grind) (.mapGet (Or.inr hG.pubR) ?_)
    simp only [MapConc.lockedStep, hr, ha, hdg]
    cases (M.d.get M.read.m).get k with
    | some e => exact .base (.unexp _ _ _ _ _ (.cia ..)) fun _ => hE
    | none =>
      refine .getDirty (.mapGet (Or.inl rfl) ?_)
      cases (M.d.get M.d.dirty).get k with
      | some e => exact .goto (.base (.try' _ _ .inDirty _ _ (.cia ..)) fun _ => hE)
      | none =>
        obtain ⟨s, h1, h2⟩ := addCase (.computeIfAbsent k f) trivial
        cases h1
        exact h2
  case computeIfPresent k f =>
    refine ok_read hG hh 0 (x := .inl (MapConc.lockedStep g (.computeIfPresent k f)).2) (by simp only [MapConc.step, MapConc.lockedStep]; grind) (.mapGet (Or.inr hG.pubR) ?_)
    simp only [MapConc.lockedStep, hr, ha, hdg]
    cases (M.d.get M.read.m).get k with
    | some e => exact .base (.unexp _ _ _ _ _ (.cip ..)) fun _ => hE
    | none =>
      refine .getDirty (.mapGet (Or.inl rfl) ?_)
      cases (M.d.get M.d.dirty).get k with
      | some e => exact .goto (.base (.try' _ _ .inDirty _ _ (.cip ..)) fun _ => hE)
      | none => exact .base (.unlock _ _ _ _ (.ret _)) fun _ => hE
  all_goals
    rename_i k
    cases hg : (M.d.get M.read.m).get k with
    | some e =>
      refine ok_read hG hh 0 (x := .inl (.unlock (.del e))) (by simp only [MapConc.step, MapConc.lockedStep, hr, hg]) (.mapGet (Or.inr hG.pubR) ?_)
      simp only [hg]
      exact .base (.unlock _ _ _ _ (.del e ⟨k, by simp⟩)) fun _ => hE
    | none =>
      cases hb : M.read.amended with
      | false =>
        refine ok_read hG hh 0 (by simp only [MapConc.step, MapConc.lockedStep, hr, hg, ha, hb, Bool.false_eq_true, if_false] <;> rfl) (.mapGet (Or.inr hG.pubR) ?_)
        simp only [hg, Bool.false_eq_true, if_false]
        exact .base (.unlock _ _ _ _ (.ret _)) fun _ => hE
      | true =>
        have tr : Tr M M g { g with dirty := g.dirty.map (·.del k) } i :=
          .held ⟨hG.mu, hG.read, hG.amended, hG.p, hG.next, hG.pubR, by simp [hm], hG.wf, hG.pubLt, hG.dirtyLt⟩ hm (Or.inl hm) (.refl _)
        have key : ∀ (op : Op K V) kont t, (∀ D, KRel D op kont t) → At true M.d (g.dirty.map (·.del k)) g.misses op
            (.getDirty fun d => .mapDel d k <| missLocked <| .unlock t) (.inl (.miss kont)) := by
          intro op kont t hk
          refine .getDirty ?_
          cases hd : M.d.dirty with
          | none => exact .mapDelNil (.base (.miss _ _ _ _ (hk _)) fun _ => ⟨by simp [hE.dirty, hd], hE.misses, hE.priv⟩)
          | some r => exact .mapDel hd (hE.priv r hd) (.base (.miss _ _ _ _ (hk _)) fun _ => ⟨by simp [hE.dirty, hd], hE.misses, hE.priv⟩)
        cases hg' : (M.d.get M.d.dirty).get k with
        | some e =>
          refine .inr ⟨_, 0, _, .inl (.miss (.del e)), rfl, by simp only [MapConc.step, MapConc.lockedStep, hr, hg, ha, hb, hdg, hg', if_true] <;> rfl, tr, own_inl hh ?_⟩
          refine .mapGet (Or.inr hG.pubR) ?_
          simp only [hg, if_true]
          refine .getDirty (.mapGet (Or.inl rfl) ?_)
          rw [hg']
          exact key _ _ _ fun _ => .del e ⟨k, by simp⟩
        | none =>
          refine .inr ⟨_, 0, _, .inl (.miss (.ret (delRes none _))), rfl, by simp only [MapConc.step, MapConc.lockedStep, hr, hg, ha, hb, hdg, hg', if_true] <;> rfl, tr, own_inl hh ?_⟩
          refine .mapGet (Or.inr hG.pubR) ?_
          simp only [hg, if_true]
          refine .getDirty (.mapGet (Or.inl rfl) ?_)
          rw [hg']
          exact key _ _ _ fun _ => .ret _

theorem ok_del {q : Bool} {M : Mem K V} {g : G K V} {i : Nat} {op : Op K V} {c : Nat} {M' : Mem K V} {y e} (hG : Glob M g) (hh : false = decide (M.mu = some i))
    (hst : exec M i (code (.delete op e)) c = some (M', y)) : StepOk q M M' g i op y (.inl (.del e)) := by
  simp only [code, exec, Option.some.injEq, Prod.mk.injEq] at hst
  obtain ⟨rfl, rfl⟩ := hst
  cases hq : M.ptr e with
  | nil => exact ok_read hG hh 0 (by simp only [MapConc.step, hG.p, hq]) .ret
  | expunged => exact ok_read hG hh 0 (by simp only [MapConc.step, hG.p, hq]) .ret
  | cell j w => exact ok_read hG hh 0 (by simp only [MapConc.step, hG.p, hq]) (.base (.delCas ..) (by simp))

theorem ok_delCas {q : Bool} {M : Mem K V} {g : G K V} {i : Nat} {op : Op K V} {c : Nat} {M' : Mem K V} {y e j w} (hG : Glob M g) (hh : false = decide (M.mu = some i))
    (hst : exec M i (.casPtr e (.cell j w) .nil fun ok => if ok then .ret (delRes (some w) op) else .goto (.delete op e)) c = some (M', y)) :
    StepOk q M M' g i op y (.inl (.delCas e (.cell j w))) := by
  simp only [exec] at hst
  split at hst <;> simp only [Option.some.injEq, Prod.mk.injEq] at hst <;> obtain ⟨rfl, rfl⟩ := hst
  · rename_i he
    exact .inr ⟨_, 0, _, _, rfl, by simp only [MapConc.step, hG.p, he, if_true, New.ptr] <;> rfl, .ptr hG i e _, own_inl hh .ret⟩
  · rename_i he
    exact .inr ⟨_, 0, _, _, rfl, by simp only [MapConc.step, hG.p, he, if_false], .refl hG i, own_inl hh (.goto (.base (.del ..) (by simp)))⟩

theorem ok_iter {M : Mem K V} {g : G K V} {i : Nat} {c : Nat} {M' : Mem K V} {y f m seen vis} (hG : Glob M g) (hh : false = decide (M.mu = some i))
    (hp : M.d.Pub m) (hst : exec M i (code (.rangeLoop f m seen vis)) c = some (M', y)) : StepOk true M M' g i (.range f) y (.inl (.iter (M.d.rest m seen) vis)) := by
  simp only [code, exec] at hst
  split at hst
  · rename_i hr
    simp only [Option.some.injEq, Prod.mk.injEq] at hst
    obtain ⟨rfl, rfl⟩ := hst
    exact ok_read hG hh 0 (by simp only [MapConc.step, hr]) .ret
  · rename_i hr
    split at hst
    · simp at hst
    · rename_i z hz
      obtain ⟨k, e⟩ := z
      simp only [Option.some.injEq, Prod.mk.injEq] at hst
      obtain ⟨rfl, rfl⟩ := hst
      exact .inl ⟨rfl, .refl hG i, own_inl hh (.base (.iterL _ _ _ _ _ _ k e c hp rfl hz) (by simp))⟩

theorem ok_iterL {q : Bool} {M : Mem K V} {g : G K V} {i : Nat} {c c' : Nat} {M' : Mem K V} {y f m seen vis kk k e} (hG : Glob M g) (hh : false = decide (M.mu = some i))
    (hp : M.d.Pub m) (hk : code (.rangeLoop f m seen vis) = .mapNext m seen kk)
    (hz : (M.d.rest m seen)[c' % (M.d.rest m seen).length]? = some (k, e)) (hst : exec M i (kk (some (k, e))) c = some (M', y)) :
    StepOk q M M' g i (.range f) y (.inl (.iter (M.d.rest m seen) vis)) := by
  simp only [code, Cmd.mapNext.injEq, true_and] at hk
  subst hk
  simp only [exec, Option.some.injEq, Prod.mk.injEq] at hst
  obtain ⟨rfl, rfl⟩ := hst
  have hs := step_iter (g := g) (i := i) (op := .range f) (vis := vis) hz
  rw [rest_erase hG.wf hz, hG.p] at hs
  cases hq : M.ptr e <;> simp only [hq] at hs
  · exact ok_read hG hh c' hs (.goto (.base (.iter _ _ _ _ _ hp) (by simp)))
  · exact ok_read hG hh c' hs (.goto (.base (.iter _ _ _ _ _ hp) (by simp)))
  · exact ok_read hG hh c' hs (.base (.icall _ _ _ _ _ _ _ hp) (by simp))

theorem ok_icall {q : Bool} {M : Mem K V} {g : G K V} {i : Nat} {c : Nat} {M' : Mem K V} {y f m seen vis k v} (hG : Glob M g) (hh : false = decide (M.mu = some i))
    (hp : M.d.Pub m) (hst : exec M i (.user fun c => if f k v c then
        .goto (.rangeLoop f m (seen ++ [k]) (vis ++ [(k, v)])) else .ret (.visited (vis ++ [(k, v)]) false)) c = some (M', y)) :
    StepOk q M M' g i (.range f) y (.inl (.icall (M.d.rest m (seen ++ [k])) vis k v)) := by
  simp only [exec, Option.some.injEq, Prod.mk.injEq] at hst
  obtain ⟨rfl, rfl⟩ := hst
  cases hq : f k v c
  · exact ok_read hG hh c (by simp only [MapConc.step, hq, Bool.false_eq_true, if_false]) .ret
  · exact ok_read hG hh c (by simp only [MapConc.step, hq]; rfl) (.goto (.base (.iter _ _ _ _ _ hp) (by simp)))

/-- The steps at `Base` points. -/
theorem base_step {M : Mem K V} {g : G K V} {i : Nat} {op : Op K V} {c : Nat} {M' : Mem K V} {y t x h D} (hG : Glob M g) (hD : D = M.d)
    (hh : h = decide (M.mu = some i)) (hE : h = true → Exact M.d g.dirty g.misses) (hc : x = .inl .locked → g.amended = false → g.dirty = none)
    (ha : ∀ v, x = .inl (.add v) → g.dirty ≠ none) (hb : Base h D op t x) (hst : exec M i t c = some (M', y)) : StepOk (quiet t x) M M' g i op y x := by
  have hm : h = true → M.mu = some i := fun e => by rw [e] at hh; simpa using hh.symm
  cases hb <;> subst hD
  case start => exact ok_start hG hh hst
  case lock => exact ok_lock hG hst
  case locked t' ht => exact ok_locked hG (hm rfl) (hE rfl) (hc rfl) ht hst
  case try' ht => exact ok_try hG hh hE ht hst
  case callA =>
    simp only [exec, Option.some.injEq, Prod.mk.injEq] at hst
    obtain ⟨rfl, rfl⟩ := hst
    exact ok_call hG hh rfl rfl (.base (.casA ..) hE)
  case callP =>
    simp only [exec, Option.some.injEq, Prod.mk.injEq] at hst
    obtain ⟨rfl, rfl⟩ := hst
    exact ok_call hG hh rfl rfl (.base (.casP ..) hE)
  case casS => exact ok_cas (md := .free) hG hh hst .ret (.goto (.base (.reS ..) hE))
  case casL md k v e =>
    exact ok_cas hG hh hst (at_finish (op := .loadOrStore k v) md _ _ _ hE (by simp [MapConc.okRes])) (.base (.reL _ _ _ _ _ _ rfl) hE)
  case casA md k f e i =>
    exact ok_cas hG hh hst (at_finish (op := .computeIfAbsent k f) md _ _ _ hE (by simp [MapConc.okRes])) (.base (.reA _ _ _ _ _ _ _ rfl) hE)
  case casP md k f e p w i =>
    exact ok_cas hG hh hst (at_finish (op := .computeIfPresent k f) md _ _ _ hE (by simp [MapConc.okRes])) (.base (.reP _ _ _ _ _ p _ _ _ rfl) hE)
  case reS k v e =>
    simp only [code, exec, Option.some.injEq, Prod.mk.injEq] at hst
    obtain ⟨rfl, rfl⟩ := hst
    refine ok_read hG hh 0 rfl ?_
    rw [hG.p]
    cases M.ptr e <;> simp [MapConc.again, MapConc.decide']
    · exact .base (.casS ..) hE
    · exact .base (.lock _ (.store k v)) hE
    · exact .base (.casS ..) hE
  case reL md k v e kk hk =>
    simp only [code, Cmd.casPtr.injEq, true_and] at hk
    subst hk
    simp only [Bool.false_eq_true, if_false, exec, Option.some.injEq, Prod.mk.injEq] at hst
    obtain ⟨rfl, rfl⟩ := hst
    refine ok_read hG hh 0 rfl ?_
    rw [hG.p]
    cases M.ptr e <;> simp only [MapConc.again, MapConc.decide']
    · exact .goto (.base (.casL ..) hE)
    · refine at_finish (op := .loadOrStore k v) md _ _ _ hE ?_
      cases md <;> simp [MapConc.after, MapConc.failRes]
    · refine at_finish (op := .loadOrStore k v) md _ _ _ hE ?_
      simp
  case reA md k f e i kk hk =>
    simp only [code, Cmd.casPtr.injEq, true_and] at hk
    subst hk
    simp only [Bool.false_eq_true, if_false, exec, Option.some.injEq, Prod.mk.injEq] at hst
    obtain ⟨rfl, rfl⟩ := hst
    refine ok_read hG hh 0 rfl ?_
    rw [hG.p]
    cases M.ptr e <;> simp only [MapConc.again, MapConc.decide']
    · exact .goto (.base (.casA ..) hE)
    · refine at_finish (op := .computeIfAbsent k f) md _ _ _ hE ?_
      cases md <;> simp [MapConc.after, MapConc.failRes]
    · refine at_finish (op := .computeIfAbsent k f) md _ _ _ hE ?_
      simp
  case reP md k f e p w i kk hk =>
    simp only [code, Cmd.casPtr.injEq, true_and] at hk
    subst hk
    simp only [Bool.false_eq_true, if_false, exec, Option.some.injEq, Prod.mk.injEq] at hst
    obtain ⟨rfl, rfl⟩ := hst
    refine ok_read hG hh 0 rfl ?_
    rw [hG.p]
    cases M.ptr e <;> simp only [MapConc.again, MapConc.decide']
    · refine at_finish (op := .computeIfPresent k f) md _ _ _ hE ?_
      cases md <;> simp [MapConc.after, MapConc.failRes]
    · refine at_finish (op := .computeIfPresent k f) md _ _ _ hE ?_
      cases md <;> simp [MapConc.after, MapConc.failRes]
    · exact .goto (.base (.casP ..) hE)
  case unexp hu => exact ok_unexp hG (hm rfl) (hE rfl) hu hst
  case storeLocked k v e =>
    simp only [storeLocked, exec, Option.some.injEq, Prod.mk.injEq] at hst
    obtain ⟨rfl, rfl⟩ := hst
    exact .inr ⟨_, 0, _, _, rfl, rfl, .ptr hG i e _, own_inl hh (.base (.unlock _ _ _ _ (.ret _)) hE)⟩
  case miss hk => exact ok_miss hG (hm rfl) (hE rfl) hk hst
  case promote hk => exact ok_promote hG (hm rfl) (hE rfl) rfl (hk.ext (ext_pub _ _ _ _)) hst
  case rpromote f =>
    refine ok_promote hG (hm rfl) (hE rfl) rfl ?_ hst
    rw [(hE rfl).getD]
    have : M.d.get M.d.dirty = Plain.get { M.d with dirty := none, misses := 0, pub := M.d.dirty.toList ++ M.d.pub } M.d.dirty := rfl
    rw [this]
    refine .iter f _ rfl fun r h => ?_
    simp only [List.mem_append, Option.mem_toList]
    exact Or.inl h
  case build0 h1 h2 h3 => exact ok_build0 hG (hm rfl) (hE rfl) h1 h2 h3 hst
  case build h1 h2 h3 => exact ok_build hG (hm rfl) (hE rfl) h1 h2 h3 hst
  case buildE h1 h2 h3 => exact ok_buildE hG (hm rfl) (hE rfl) h1 h2 h3 hst
  case buildC h1 h2 h3 => exact ok_buildC hG (hm rfl) (hE rfl) h1 h2 h3 hst
  case amend h1 h2 => exact ok_amend hG (hm rfl) (hE rfl) h1 h2 hst
  case addCall k f =>
    simp only [addNew, exec, Option.some.injEq, Prod.mk.injEq] at hst
    obtain ⟨rfl, rfl⟩ := hst
    exact .inr ⟨_, c, _, _, rfl, rfl, .same hG i _, own_inl hh (.base (.add _ (.computeIfAbsent k f) k _ rfl) hE)⟩
  case add v hk => exact ok_add hG (hm rfl) (hE rfl) hk (ha v rfl) hst
  case unlock hk => exact ok_unlock hG (hm rfl) (hE rfl) hk hst
  case eload e =>
    simp only [entryLoad, exec, Option.some.injEq, Prod.mk.injEq] at hst
    obtain ⟨rfl, rfl⟩ := hst
    refine ok_read hG hh 0 (x := .inr (.value (g.p e).get?)) rfl ?_
    rw [hG.p]
    exact .ret
  case del => exact ok_del hG hh hst
  case delCas => exact ok_delCas hG hh hst
  case iter hp => exact ok_iter hG hh hp hst
  case iterL hk hp hz => exact ok_iterL hG hh hp hk hz hst
  case icall hp => exact ok_icall hG hh hp hst

/-- A private step of the holder of the lock. -/
theorem ok_priv {M : Mem K V} {g : G K V} {i : Nat} {op : Op K V} {D' : Plain K} {t x} (hG : Glob M g) (hm : M.mu = some i) (hx : Ext M.d D')
    (hw : ∀ r, (D'.maps r).WF) (hl : D'.pub = M.d.pub) (hn : M.d.nmaps ≤ D'.nmaps) (hd : ∀ r, D'.dirty = some r → r < D'.nmaps)
    (ha : At true D' g.dirty g.misses op t x) : StepOk true M { M with d := D' } g i op (.inl t) x := by
  refine .inl ⟨rfl, .held ⟨hG.mu, ?_, hG.amended, hG.p, hG.next, (hx.get hG.pubR).2, by simp [hm], hw, fun r h => ?_, hd⟩ hm (Or.inl hm) hx, own_inl (by simp [hm]) ha⟩
  · rw [hG.read]; exact (hx.get hG.pubR).1.symm
  · rw [hl] at h; exact Nat.lt_of_lt_of_le (hG.pubLt r h) hn

theorem at_step {M : Mem K V} {g : G K V} {i : Nat} {op : Op K V} {c : Nat} {M' : Mem K V} {y t x} (hG : Glob M g)
    (hc : x = .inl .locked → g.amended = false → g.dirty = none) (ha : ∀ v, x = .inl (.add v) → g.dirty ≠ none)
    (hA : At (decide (M.mu = some i)) M.d g.dirty g.misses op t x) (hst : exec M i t c = some (M', y)) : StepOk (quiet t x) M M' g i op y x := by
  generalize hh : decide (M.mu = some i) = h at hA
  generalize hD : M.d = D at hA
  have hm : h = true → M.mu = some i := fun e => by rw [e] at hh; simpa using hh
  cases hA <;> subst hD
  case base hE hb => exact base_step hG rfl hh.symm hE hc ha hb hst
  all_goals simp only [exec, Option.some.injEq, Prod.mk.injEq] at hst; obtain ⟨rfl, rfl⟩ := hst
  case ret => exact .inl ⟨rfl, .refl hG i, rfl⟩
  case mapSetNil => exact .inl ⟨rfl, .refl hG i, rfl⟩
  case goto h1 => exact .inl ⟨rfl, .refl hG i, own_inl hh.symm h1⟩
  case getDirty h1 => exact .inl ⟨rfl, .refl hG i, own_inl hh.symm h1⟩
  case getMisses h1 => exact .inl ⟨rfl, .refl hG i, own_inl hh.symm h1⟩
  case mapGet h1 => exact .inl ⟨rfl, .refl hG i, own_inl hh.symm h1⟩
  case mapLen h1 => exact .inl ⟨rfl, .refl hG i, own_inl hh.symm h1⟩
  case mapDelNil h1 => exact .inl ⟨rfl, .refl hG i, own_inl hh.symm h1⟩
  case setDirty h1 h2 => exact ok_priv hG (hm rfl) ⟨fun _ h => h, fun _ _ => rfl⟩ hG.wf rfl (Nat.le_refl _) (fun r h => (h1 r h).2) h2
  case setMisses h1 => exact ok_priv hG (hm rfl) ⟨fun _ h => h, fun _ _ => rfl⟩ hG.wf rfl (Nat.le_refl _) hG.dirtyLt h1
  case mapSet r key e t h1 h2 h3 =>
    refine ok_priv hG (hm rfl) (ext_maps _ _ h2 _ _ _ _) (fun r' => ?_) rfl (Nat.le_refl _) hG.dirtyLt h3
    by_cases hr : r' = r
    · subst hr; simp only [upd_same]; exact GMap.wf_set (hG.wf _) _ _
    · simp only [upd_ne _ _ hr]; exact hG.wf _
  case mapDel r key t h1 h2 h3 =>
    refine ok_priv hG (hm rfl) (ext_maps _ _ h2 _ _ _ _) (fun r' => ?_) rfl (Nat.le_refl _) hG.dirtyLt h3
    by_cases hr : r' = r
    · subst hr; simp only [upd_same]; exact GMap.wf_del (hG.wf _) _
    · simp only [upd_ne _ _ hr]; exact hG.wf _
  case newMap h1 =>
    have hn : M.d.nmaps ∉ M.d.pub := fun h => Nat.lt_irrefl _ (hG.pubLt _ h)
    refine ok_priv hG (hm rfl) (ext_maps _ _ hn _ _ _ _) (fun r' => ?_) rfl (Nat.le_succ _) (fun r h => Nat.lt_succ_of_lt (hG.dirtyLt r h)) h1
    by_cases hr : r' = M.d.nmaps
    · subst hr; simp only [upd_same]; exact GMap.wf_nil
    · simp only [upd_ne _ _ hr]; exact hG.wf _

/-- Every step of the memory-level program is no step there, or one. -/
theorem rel_step {M M' : Mem K V} {m' : Conf (G K V) (Op K V) (Res K V) (Pt K V)} {H : List (Ev (Op K V) (Res K V))} {v : View (Op K V) (Res K V) (Cmd K V)}
    {i c : Nat} {op : Op K V} {t : Cmd K V} {x : Cmd K V ⊕ Res K V} (he : MapConc.prog.mach.Exec m' H) (hR : Rel M m'.g v m'.view)
    (hv : v i = some (op, .inl t)) (hst : exec M i t c = some (M', x)) :
    (Rel M' m'.g (upd v i (some (op, x))) m'.view ∧ ∀ z, m'.view i = some (op, z) → quiet t z = true) ∨
    ∃ s c' g' x', m'.view i = some (op, .inl s) ∧ MapConc.step m'.g i op s c' = some (g', x') ∧
      Rel M' g' (upd v i (some (op, x))) (upd m'.view i (some (op, x'))) := by
  have ho := hR.2 i
  rw [hv] at ho
  obtain ⟨z, hz, hA⟩ := ho
  obtain ⟨gh, _, _, hI⟩ := MapConc.simulation he
  have : StepOk (quiet t z) M M' m'.g i op x z := by
    refine at_step hR.1 ?_ ?_ hA hst
    · rintro rfl ham
      have hmu := (hI.mu i _ _ hz).1 rfl
      have hmode : MapConc.modeAt m'.g.mu m'.view = none := by simp [MapConc.modeAt, hmu, hz, MapConc.Pt.mode]
      have := hI.gi.ready hmode
      cases hd : m'.g.dirty with
      | none => rfl
      | some d =>
        have e := this (by simp [G.a, hd])
        rw [show m'.g.a.am = m'.g.amended from rfl, ham] at e
        simp at e
    · rintro v rfl hd
      have h1 := (hI.lloc i _ _ hz rfl).1
      have h2 := (hI.gi.noD (by simp [G.a, hd])).1
      rw [h1] at h2
      simp at h2
  rcases this with ⟨hq, h1, h2⟩ | ⟨s, c', g', x', rfl, h2, h3, h4⟩
  · left
    have := h1.rel hR h2
    rw [show upd m'.view i (some (op, z)) = m'.view from by funext j; by_cases hj : j = i <;> simp [hj, upd, hz]] at this
    exact ⟨this, fun z' hz' => by rw [hz] at hz'; cases hz'; exact hq⟩
  · exact .inr ⟨s, c', g', x', hz, h2, h3.rel hR h4⟩

/-- Every history of the memory-level program is a history of the program with map values, and the states are related. -/
theorem refines {m : Conf (Mem K V) (Op K V) (Res K V) (Cmd K V)} {H : List (Ev (Op K V) (Res K V))} (h : prog.mach.Exec m H) :
    ∃ m', MapConc.prog.mach.Exec m' H ∧ Rel m.g m'.g m.view m'.view := by
  refine Prog.refine prog MapConc.prog Rel ?_ ?_ ?_ ?_ ?_ h
  · refine ⟨⟨rfl, rfl, rfl, rfl, rfl, fun r h => ?_, fun _ => ⟨rfl, rfl, fun r h => ?_⟩, fun _ => GMap.wf_nil, fun r h => ?_, fun r h => ?_⟩, fun i => rfl⟩ <;> cases h
  · intro M g v w i hR hv
    have := hR.2 i
    rwa [hv] at this
  · intro M g v w i op r hR hv
    have := hR.2 i
    rwa [hv] at this
  · intro M m' H v i op he hR hv
    refine (Tr.refl hR.1 i).rel hR ?_
    have hm : M.mu ≠ some i := by
      obtain ⟨gh, _, _, hI⟩ := MapConc.simulation he
      intro hm
      obtain ⟨o, s, h1, _⟩ := hI.muIn i (hR.1.mu.trans hm)
      have := hR.2 i
      rw [hv] at this
      rw [this] at h1
      simp at h1
    exact own_inl (h := false) (by simp [hm]) (.base (.start _ _) (by simp))
  · intro M m' H v i op t c M' x he hR hv hst
    exact (rel_step he hR hv hst).imp And.left id

end Verif.XSync.MapMem

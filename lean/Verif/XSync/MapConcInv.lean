import Verif.XSync.MapConcAbs
import Verif.XSync.MapConcSpec
/-! # Invariant of the concurrent map -/
namespace Verif.XSync.MapConc
open Verif.Conc Verif.Go

variable {K V : Type} [DecidableEq K]

/-- Abbreviation. -/
abbrev Gh (K V : Type) := Ghost (M K V) (Op K V) (Res K V)
/-- Abbreviation. -/
abbrev Vw (K V : Type) := View (Op K V) (Res K V) (Pt K V)

/-- Proof only: the memory of the map without the order of keys. -/
def G.a (g : G K V) : A K V := ⟨g.read.get, g.dirtyGet, g.dirty.isSome, g.amended, g.p, g.key⟩

/-- During the call `i` the contents of `k` have been `x`. -/
def saw (gh : Gh K V) (i : Nat) (k : K) (x : Option V) : Prop := ∃ j, gh.Inst i j ∧ gh.at' j k = x

/-- The points at which a call holds `m.mu`. -/
def Pt.holds : Pt K V → Bool
  | .tryLoad m _ | .call m _ _ | .cas m _ _ _ | .reload m _ _ => m != .free
  | .start | .lock | .eload _ | .del _ | .delCas _ _ | .iter _ _ | .icall _ _ _ _ => false
  | _ => true

/-- Proof only: the call has the lock. -/
def lockedX : Pt K V ⊕ Res K V → Bool
  | .inl s => s.holds
  | .inr _ => false

/-- Proof only: the entries that `dirtyLocked` (map.go:492-505) has still to visit; `none`: it does not run. -/
def Pt.mode : Pt K V → Option (List (K × Nat))
  | .build _ todo => some todo
  | .buildE _ rest k e | .buildC _ rest k e => some ((k, e) :: rest)
  | .amend _ => some []
  | _ => none

/-- Proof only: the same for the call that has the lock. -/
def modeAt (mu : Option Nat) (v : Vw K V) : Option (List (K × Nat)) :=
  match mu with
  | none => none
  | some i => match v i with
    | some (_, .inl s) => s.mode
    | _ => none

/-- What a compare-and-swap installs. -/
def XOk (sw : K → Option V → Prop) : Op K V → V × Option V → Prop
  | .store _ v, x => x = (v, none)
  | .loadOrStore _ v, x => x = (v, none)
  | .computeIfAbsent k f, x => ∃ c, x = (f k c, none)
  | .computeIfPresent k f, x => ∃ w c, x = (f k w c, some w) ∧ sw k (some w)
  | _, _ => False

/-- What a compare-and-swap expects. -/
def POk : Op K V → Ptr V → Prop
  | .store _ _, p => p ≠ .expunged
  | .loadOrStore _ _, p => p = .nil
  | .computeIfAbsent _ _, p => p = .nil
  | .computeIfPresent _ _, p => ∃ c w, p = .cell c w
  | _, _ => False

/-- What is added for a new key. -/
def AddOk : Op K V → V → Prop
  | .store _ v, x => x = v
  | .loadOrStore _ v, x => x = v
  | .computeIfAbsent k f, x => ∃ c, x = f k c
  | _, _ => False

/-- The operations that use the functions `try...`. -/
def Op.tries : Op K V → Bool
  | .store _ _ | .loadOrStore _ _ | .computeIfAbsent _ _ | .computeIfPresent _ _ => true
  | _ => false

/-- The operations that may add a new key. -/
def Op.adds : Op K V → Bool
  | .store _ _ | .loadOrStore _ _ | .computeIfAbsent _ _ => true
  | _ => false

/-- What results say about the observations of a call. -/
def ResOk (sw : K → Option V → Prop) (pre : K → V → Prop) : Op K V → Res K V → Prop
  | .range _, .visited l b => (l.map (·.1)).Nodup ∧ (∀ x ∈ l, sw x.1 (some x.2)) ∧ (b = true → ∀ k, k ∈ l.map (·.1) ∨ sw k none)
  | .computeIfPresent k _, .present (some (w, _)) => pre k w
  | _, _ => True

/-- Between its start and its own change, the call `i` found the value `w` for `k`. -/
def pre (gh : Gh K V) (i : Nat) (k : K) (w : V) : Prop :=
  ∃ n j op r, gh.log[n]? = some (i, op, r) ∧ gh.Inst i j ∧ j ≤ n ∧ gh.at' j k = some w

/-- The call has its result. -/
def Fin' (gh : Gh K V) (i : Nat) (op : Op K V) (r : Res K V) : Prop :=
  (gh.st i = .committed op r ∨ (gh.st i = .invoked op ∧ ∃ j, gh.Inst i j ∧ Does (gh.at' j) op r (gh.at' j)) ∨ gh.st i = .done) ∧
  ResOk (saw gh i) (pre gh i) op r

/-- Proof only: part of an invariant or simulation; models no code. -/
def ELoad (a : A K V) (gh : Gh K V) (i : Nat) (op : Op K V) (e : Nat) : Prop :=
  gh.st i = .invoked op ∧ ∃ k, op = .load k ∧ Held a (saw gh i) k e

/-- The call has removed the private entry from `m.dirty` and is going to empty it. -/
def Own (a : A K V) (gh : Gh K V) (i : Nat) (op : Op K V) (k : K) (e : Nat) (q : Ptr V → Prop) : Prop :=
  ∃ c w, a.Orphan k e ∧ a.p e = .cell c w ∧ gh.st i = .committed op (delRes (some w) op) ∧ q (.cell c w)

/-- Proof only: part of an invariant or simulation; models no code. -/
def DelOk (a : A K V) (gh : Gh K V) (i : Nat) (op : Op K V) (e : Nat) (q : Ptr V → Prop) : Prop :=
  ∃ k, (op = .loadAndDelete k ∨ op = .delete k) ∧ ((gh.st i = .invoked op ∧ HeldR a (saw gh i) k e) ∨ Own a gh i op k e q)

/-- Proof only: part of an invariant or simulation; models no code. -/
def IterOk (a : A K V) (gh : Gh K V) (i : Nat) (op : Op K V) (todo : List (K × Nat)) (vis : List (K × V)) : Prop :=
  gh.st i = .invoked op ∧ (∃ f, op = .range f) ∧ (vis.map (·.1) ++ todo.map (·.1)).Nodup ∧ (∀ x ∈ vis, saw gh i x.1 (some x.2)) ∧
  (∀ x ∈ todo, HeldR a (saw gh i) x.1 x.2) ∧ ∀ k, k ∈ vis.map (·.1) ∨ k ∈ todo.map (·.1) ∨ saw gh i k none

/-- Proof only: part of an invariant or simulation; models no code. -/
def FCont (a : A K V) (gh : Gh K V) (i : Nat) (op : Op K V) : Cont K V → Prop
  | .ret r => Fin' gh i op r
  | .eload e => ELoad a gh i op e
  | .del e => DelOk a gh i op e (fun _ => True)
  | .iter m => IterOk a gh i op m []

/-- A call got the entry of its key from `read.m`, if it does not hold the lock. -/
def FTry (a : A K V) (gh : Gh K V) (i : Nat) (op : Op K V) (m : Mode) (e : Nat) : Prop :=
  gh.st i = .invoked op ∧ op.tries = true ∧ (m = .free → ∃ k, op.key? = some k ∧ HeldR a (saw gh i) k e)

/-- What is known about a call at a point, whatever the others do. -/
def FLoc (a : A K V) (gh : Gh K V) (i : Nat) (op : Op K V) : Pt K V → Prop
  | .start | .lock | .locked => gh.st i = .invoked op
  | .tryLoad m e => FTry a gh i op m e
  | .call m e p => FTry a gh i op m e ∧ POk op p ∧ (callF op p 0).isSome ∧ (∀ k c w, op.key? = some k → p = .cell c w → saw gh i k (some w))
  | .cas m e p x => FTry a gh i op m e ∧ POk op p ∧ XOk (saw gh i) op x
  | .reload m e x => FTry a gh i op m e ∧ XOk (saw gh i) op x
  | .unexp _ => gh.st i = .invoked op ∧ op.tries = true
  | .storeLocked _ => gh.st i = .invoked op ∧ ∃ k v, op = .store k v
  | .miss k | .promote k | .unlock k => FCont a gh i op k
  | .rpromote => gh.st i = .invoked op ∧ ∃ f, op = .range f
  | .build0 _ | .build _ _ | .buildE _ _ _ _ | .buildC _ _ _ _ | .amend _ => gh.st i = .invoked op ∧ op.adds = true
  | .addCall => gh.st i = .invoked op ∧ ∃ k f, op = .computeIfAbsent k f
  | .add x => gh.st i = .invoked op ∧ AddOk op x
  | .eload e => ELoad a gh i op e
  | .del e => DelOk a gh i op e (fun _ => True)
  | .delCas e p => DelOk a gh i op e (· = p) ∧ ∃ c w, p = .cell c w
  | .iter todo vis => IterOk a gh i op todo vis
  | .icall todo vis k v => IterOk a gh i op todo (vis ++ [(k, v)])

/-- The entry that a call with the lock found for its key. -/
def LEnt (a : A K V) (op : Op K V) : Mode → Nat → Prop
  | .free, _ => True
  | .inRead, e => ∃ k, op.key? = some k ∧ a.rd k = some e ∧ a.p e ≠ .expunged
  | .inDirty, e => ∃ k, op.key? = some k ∧ a.rd k = none ∧ a.dt k = some e

/-- What the holder of the lock knows. -/
def LLoc (g : G K V) (op : Op K V) : Pt K V → Prop
  | .tryLoad m e | .call m e _ | .cas m e _ _ | .reload m e _ => LEnt g.a op m e
  | .unexp e => ∃ k, op.key? = some k ∧ g.a.rd k = some e
  | .storeLocked e => ∃ k, op.key? = some k ∧ g.a.Live k e ∧ g.a.p e ≠ .expunged
  | .miss _ | .promote _ | .rpromote => g.a.has = true
  | .build0 rm => rm = g.read ∧ g.a.am = false ∧ ∃ k, op.key? = some k ∧ g.a.rd k = none
  | .build rm todo => rm = g.read ∧ (todo.map (·.1)).Nodup ∧ ∃ k, op.key? = some k ∧ g.a.rd k = none
  | .buildE rm rest k' e | .buildC rm rest k' e => rm = g.read ∧ (((k', e) :: rest).map (·.1)).Nodup ∧ ∃ k, op.key? = some k ∧ g.a.rd k = none
  | .amend rm => rm = g.read ∧ ∃ k, op.key? = some k ∧ g.a.rd k = none
  | .addCall | .add _ => g.a.am = true ∧ ∃ k, op.key? = some k ∧ g.a.rd k = none ∧ g.a.dt k = none
  | _ => True

/-- Proof only: the entry that the call empties after `missLocked`. -/
def Cont.delE : Cont K V → Option Nat
  | .del e => some e
  | _ => none

/-- The entry that the call is going to empty. -/
def Pt.delE : Pt K V → Option Nat
  | .del e | .delCas e _ => some e
  | .miss k | .promote k | .unlock k => k.delE
  | _ => none

/-- Proof only: part of an invariant or simulation; models no code. -/
def Committed (gh : Gh K V) (i : Nat) : Prop := ∃ op r, gh.st i = .committed op r

/-- Proof only: part of an invariant or simulation; models no code. -/
structure I (g : G K V) (v : Vw K V) (gh : Gh K V) : Prop where
  cur : gh.cur = g.a.abs
  gi : GI g.a (modeAt g.mu v)
  fresh : ∀ e, g.next ≤ e → g.key e = none
  wfR : g.read.WF
  wfD : (g.dirty.getD []).WF
  mu : ∀ i op s, v i = some (op, .inl s) → (s.holds = true ↔ g.mu = some i)
  muIn : ∀ i, g.mu = some i → ∃ op s, v i = some (op, .inl s) ∧ s.holds = true
  floc : ∀ i op s, v i = some (op, .inl s) → FLoc g.a gh i op s
  lloc : ∀ i op s, v i = some (op, .inl s) → s.holds = true → LLoc g op s
  fin : ∀ i op r, v i = some (op, .inr r) → Fin' gh i op r
  own : ∀ i j op op' s s' e, v i = some (op, .inl s) → v j = some (op', .inl s') → s.delE = some e → s'.delE = some e →
    Committed gh i → Committed gh j → i = j

/-! ## What the others do -/

/-- The observations of the call `j` are kept. -/
def Ext (gh gh' : Gh K V) (j : Nat) : Prop :=
  (∀ n, gh.Inst j n → gh'.Inst j n ∧ gh'.at' n = gh.at' n) ∧ ∀ (n : Nat) y, gh.log[n]? = some y → gh'.log[n]? = some y

omit [DecidableEq K] in
theorem Ext.refl (gh : Gh K V) (j : Nat) : Ext gh gh j := ⟨fun _ h => ⟨h, rfl⟩, fun _ _ h => h⟩

omit [DecidableEq K] in
theorem Ext.saw {gh gh' : Gh K V} {j : Nat} (h : Ext gh gh' j) {k : K} {x : Option V} : saw gh j k x → saw gh' j k x := by
  rintro ⟨n, h1, h2⟩
  exact ⟨n, (h.1 n h1).1, by rw [(h.1 n h1).2, h2]⟩

omit [DecidableEq K] in
theorem Ext.pre {gh gh' : Gh K V} {j : Nat} (h : Ext gh gh' j) {k : K} {w : V} : pre gh j k w → pre gh' j k w := by
  rintro ⟨n, m, op, r, h1, h2, h3, h4⟩
  exact ⟨n, m, op, r, h.2 _ _ h1, (h.1 m h2).1, h3, by rw [(h.1 m h2).2, h4]⟩

theorem inst_le {gh : Gh K V} (hg : GReach mapSpec gh) {j n : Nat} (h : gh.Inst j n) : n ≤ gh.log.length := by
  have hi := ginv_reach hg
  obtain ⟨_, h2⟩ := h
  cases hf : gh.fin j with
  | none => simpa [hf] using h2
  | some f => have := hi.finLe j f hf; simp [hf] at h2; omega

theorem ext_commit {gh : Gh K V} (hg : GReach mapSpec gh) (i : Nat) (op : Op K V) (r : Res K V) (s' : M K V) (j : Nat) :
    Ext gh (gh.commit i op r s') j := by
  refine ⟨?_, fun n y h => by
    simp only [Ghost.commit]
    rw [List.getElem?_append_left (by obtain ⟨h, _⟩ := List.getElem?_eq_some_iff.1 h; exact h)]; exact h⟩
  intro n h
  have hl := inst_le hg h
  obtain ⟨h1, h2⟩ := h
  refine ⟨⟨h1, ?_⟩, ?_⟩
  · simp only [Ghost.commit, List.length_append, List.length_cons, List.length_nil] at h2 ⊢
    cases hf : gh.fin j with
    | none => simp [hf] at h2 ⊢; omega
    | some f => simpa [hf] using h2
  · simp only [Ghost.commit]
    rw [upd_ne]; omega

theorem ext_invoke {gh : Gh K V} (i : Nat) (op : Op K V) (j : Nat) (h : j ≠ i) : Ext gh (gh.invoke i op) j := by
  refine ⟨?_, fun n y h => h⟩
  intro n hn
  simpa [Ghost.Inst, Ghost.invoke, upd_ne _ _ h] using hn

theorem saw_now {gh : Gh K V} (hg : GReach mapSpec gh) {j : Nat} (h : gh.st j ≠ .done) (k : K) : saw gh j k (gh.cur k) := by
  have hi := ginv_reach hg
  refine ⟨gh.log.length, ⟨hi.startLe j, ?_⟩, rfl⟩
  have := (hi.finSt j).not.2 h
  simp only [ne_eq, not_not] at this
  simp [this]

theorem inst_now {gh : Gh K V} (hg : GReach mapSpec gh) {j : Nat} (h : gh.st j ≠ .done) : gh.Inst j gh.log.length := by
  have hi := ginv_reach hg
  refine ⟨hi.startLe j, ?_⟩
  have := (hi.finSt j).not.2 h
  simp only [ne_eq, not_not] at this
  simp [this]

section
variable {b : Bool} {d : Option Nat} {a a' : A K V} {m m' : Option (List (K × Nat))} {gh gh' : Gh K V} {j : Nat} {op : Op K V}

theorem resOk_mono {sw sw' : K → Option V → Prop} {pr pr' : K → V → Prop} (h : ∀ k x, sw k x → sw' k x) (h' : ∀ k x, pr k x → pr' k x)
    {r : Res K V} (hr : ResOk sw pr op r) : ResOk sw' pr' op r := by
  unfold ResOk at *
  split at hr
  · obtain ⟨h1, h2, h3⟩ := hr
    refine ⟨h1, fun x hx => h _ _ (h2 x hx), fun hb k => (h3 hb k).imp id (h _ _)⟩
  · exact h' _ _ hr
  · simp

theorem fin_ext (hst : gh'.st j = gh.st j) (he : Ext gh gh' j) {r : Res K V} (h : Fin' gh j op r) : Fin' gh' j op r := by
  refine ⟨?_, resOk_mono (fun _ _ => he.saw) (fun _ _ => he.pre) h.2⟩
  rcases h.1 with h | ⟨h, n, h1, h2⟩ | h
  · exact Or.inl (by rw [hst, h])
  · refine Or.inr (Or.inl ⟨by rw [hst, h], n, (he.1 n h1).1, ?_⟩)
    rw [(he.1 n h1).2]; exact h2
  · exact Or.inr (Or.inr (by rw [hst, h]))

theorem xok_mono {sw sw' : K → Option V → Prop} (h : ∀ k x, sw k x → sw' k x) {x : V × Option V} (hr : XOk sw op x) : XOk sw' op x := by
  unfold XOk at *
  split at hr <;> first | exact hr | skip
  obtain ⟨w, c, h1, h2⟩ := hr
  exact ⟨w, c, h1, h _ _ h2⟩

/-- Facts about a call are not affected by the steps of other calls. -/
theorem floc_step (hA : AStep b d a m a' m') (hi : GI a m) (hst : gh'.st j = gh.st j) (he : Ext gh gh' j)
    (hn : gh.st j ≠ .done → ∀ k, saw gh j k (a.abs k)) (hn' : gh.st j ≠ .done → ∀ k, saw gh' j k (a'.abs k)) {s : Pt K V}
    (hd : ∀ e, s.delE = some e → Committed gh j → d ≠ some e) (h : FLoc a gh j op s) : FLoc a' gh' j op s := by
  have hm : ∀ k x, saw gh j k x → saw gh' j k x := fun _ _ => he.saw
  have tryC : ∀ {m e}, FTry a gh j op m e → FTry a' gh' j op m e := by
    rintro m e ⟨h1, h2, h3⟩
    refine ⟨by rw [hst, h1], h2, fun hf => ?_⟩
    obtain ⟨k, h4, h5⟩ := h3 hf
    exact ⟨k, h4, heldR_step hA hi hm (hn (by simp [h1])) h5⟩
  have elC : ∀ {e}, ELoad a gh j op e → ELoad a' gh' j op e := by
    rintro e ⟨h1, k, h2, h3⟩
    exact ⟨by rw [hst, h1], k, h2, held_step hA hi hm (hn (by simp [h1])) (hn' (by simp [h1])) h3⟩
  have delC : ∀ {e q}, (Committed gh j → d ≠ some e) → DelOk a gh j op e q → DelOk a' gh' j op e q := by
    rintro e q hd ⟨k, h1, h2⟩
    refine ⟨k, h1, ?_⟩
    rcases h2 with ⟨h2, h3⟩ | ⟨c, w, h2, h3, h4, h5⟩
    · exact Or.inl ⟨by rw [hst, h2], heldR_step hA hi hm (hn (by simp [h2])) h3⟩
    · exact Or.inr ⟨c, w, orphan_step hA hi h2, by rw [orphan_p hA hi h2 (hd ⟨_, _, h4⟩), h3], by rw [hst, h4], h5⟩
  have itC : ∀ {t v}, IterOk a gh j op t v → IterOk a' gh' j op t v := by
    rintro t v ⟨h1, h2, h3, h4, h5, h6⟩
    exact ⟨by rw [hst, h1], h2, h3, fun x hx => hm _ _ (h4 x hx), fun x hx => heldR_step hA hi hm (hn (by simp [h1])) (h5 x hx),
      fun k => (h6 k).imp id (Or.imp id (hm _ _))⟩
  have contC : ∀ {k : Cont K V}, (∀ e, k.delE = some e → Committed gh j → d ≠ some e) → FCont a gh j op k → FCont a' gh' j op k := by
    intro k hd h
    cases k with
    | ret r => exact fin_ext hst he h
    | eload e => exact elC h
    | del e => exact delC (hd e rfl) h
    | iter m => exact itC h
  cases s with
  | start => exact hst.trans h
  | lock => exact hst.trans h
  | locked => exact hst.trans h
  | tryLoad m e => exact tryC h
  | call m e p => exact ⟨tryC h.1, h.2.1, h.2.2.1, fun k c w h1 h2 => hm _ _ (h.2.2.2 k c w h1 h2)⟩
  | cas m e p x => exact ⟨tryC h.1, h.2.1, xok_mono hm h.2.2⟩
  | reload m e x => exact ⟨tryC h.1, xok_mono hm h.2⟩
  | unexp e => exact ⟨hst.trans h.1, h.2⟩
  | storeLocked e => exact ⟨hst.trans h.1, h.2⟩
  | miss k => exact contC hd h
  | promote k => exact contC hd h
  | unlock k => exact contC hd h
  | rpromote => exact ⟨hst.trans h.1, h.2⟩
  | build0 => exact ⟨hst.trans h.1, h.2⟩
  | build => exact ⟨hst.trans h.1, h.2⟩
  | buildE => exact ⟨hst.trans h.1, h.2⟩
  | buildC => exact ⟨hst.trans h.1, h.2⟩
  | amend => exact ⟨hst.trans h.1, h.2⟩
  | addCall => exact ⟨hst.trans h.1, h.2⟩
  | add => exact ⟨hst.trans h.1, h.2⟩
  | eload e => exact elC h
  | del e => exact delC (hd e rfl) h
  | delCas e p => exact ⟨delC (hd e rfl) h.1, h.2⟩
  | iter t v => exact itC h
  | icall t v k w => exact itC h

end

/-- What the holder of the lock knows is not affected by steps without the lock. -/
theorem lloc_step {g g' : G K V} {d : Option Nat} {m m' : Option (List (K × Nat))} (hA : AStep true d g.a m g'.a m') (hr : g'.read = g.read)
    {op : Op K V} {s : Pt K V} (h : LLoc g op s) : LLoc g' op s := by
  obtain ⟨_, h1, h2, h3, h4, h5, h6⟩ := free_step hA
  have hne : ∀ e, g.a.p e ≠ .expunged → g'.a.p e ≠ .expunged := fun e h => (h6 e).not.2 h
  have ent : ∀ {m e}, LEnt g.a op m e → LEnt g'.a op m e := by
    intro m e h
    cases m with
    | free => trivial
    | inRead => obtain ⟨k, a1, a2, a3⟩ := h; exact ⟨k, a1, by rw [h1]; exact a2, hne _ a3⟩
    | inDirty => obtain ⟨k, a1, a2, a3⟩ := h; exact ⟨k, a1, by rw [h1]; exact a2, by rw [h2]; exact a3⟩
  cases s <;> simp only [LLoc, A.Live, hr, h1, h2, h3, h4] at h ⊢ <;> first | exact ent h | exact h | skip
  obtain ⟨k, a1, a2, a3⟩ := h
  exact ⟨k, a1, a2, hne _ a3⟩

theorem floc_own {a : A K V} {gh : Gh K V} {j : Nat} {op : Op K V} {s : Pt K V} {e : Nat} (h : FLoc a gh j op s) (hd : s.delE = some e)
    (hc : Committed gh j) : ∃ k, a.Orphan k e := by
  obtain ⟨o, r, hc⟩ := hc
  have del : ∀ {q}, DelOk a gh j op e q → ∃ k, a.Orphan k e := by
    rintro q ⟨k, _, ⟨h1, _⟩ | ⟨c, w, h1, _⟩⟩
    · rw [hc] at h1; simp at h1
    · exact ⟨k, h1⟩
  have cont : ∀ {k : Cont K V}, k.delE = some e → FCont a gh j op k → ∃ k, a.Orphan k e := by
    intro k hk h
    cases k <;> simp only [Cont.delE, Option.some.injEq, reduceCtorEq] at hk
    subst hk; exact del h
  cases s <;> simp only [Pt.delE, Option.some.injEq, reduceCtorEq] at hd
  · exact cont hd h
  · exact cont hd h
  · exact cont hd h
  · subst hd; exact del h
  · subst hd; exact del h.1

/-- Proof only: `Pt.mode` of a call that may have returned. -/
def modeX : Pt K V ⊕ Res K V → Option (List (K × Nat))
  | .inl s => s.mode
  | .inr _ => none

theorem mode_holds {s : Pt K V} (h : s.holds = false) : s.mode = none := by
  cases s <;> simp_all [Pt.holds, Pt.mode]

/-- Proof only: the entry that a call empties, if it has not returned. -/
def delX : Pt K V ⊕ Res K V → Option Nat
  | .inl s => s.delE
  | .inr _ => none

/-- What has to be shown about the call that makes the step. -/
def New (g : G K V) (gh : Gh K V) (i : Nat) (op : Op K V) : Pt K V ⊕ Res K V → Prop
  | .inl s => FLoc g.a gh i op s ∧ (s.holds = true → LLoc g op s)
  | .inr r => Fin' gh i op r

/-- Proof only: part of an invariant or simulation; models no code. -/
structure Frame (g : G K V) (gh : Gh K V) (i : Nat) (op : Op K V) (s : Pt K V) (d : Option Nat) (g' : G K V) (gh' : Gh K V)
    (x : Pt K V ⊕ Res K V) : Prop where
  reach : GReach mapSpec gh
  reach' : GReach mapSpec gh'
  st : ∀ j, j ≠ i → gh'.st j = gh.st j
  ext : ∀ j, Ext gh gh' j
  cur : gh'.cur = g'.a.abs
  drop : ∀ e, d = some e → s.delE = some e ∧ Committed gh i
  fresh : ∀ e, g'.next ≤ e → g'.key e = none
  wfR : g'.read.WF
  wfD : (g'.dirty.getD []).WF
  new : New g' gh' i op x
  own : ∀ e, delX x = some e → Committed gh' i → (s.delE = some e ∧ Committed gh i) ∨ ∃ k, g.a.Live k e

theorem frame_core {g g' : G K V} {v : Vw K V} {gh gh' : Gh K V} {i : Nat} {op : Op K V} {s : Pt K V} {x : Pt K V ⊕ Res K V} {b : Bool}
    {d : Option Nat} (hI : I g v gh) (hv : v i = some (op, .inl s)) (hF : Frame g gh i op s d g' gh' x)
    (hA : AStep b d g.a (modeAt g.mu v) g'.a (modeAt g'.mu (upd v i (some (op, x)))))
    (hb : s.holds = false → b = true ∧ g'.read = g.read)
    (hmu : (s.holds = lockedX x ∧ g'.mu = g.mu) ∨ (s.holds = false ∧ lockedX x = true ∧ g.mu = none ∧ g'.mu = some i) ∨
      (s.holds = true ∧ lockedX x = false ∧ g'.mu = none)) : I g' (upd v i (some (op, x))) gh' := by
  have hnow : ∀ j, gh.st j ≠ .done → ∀ k, saw gh j k (g.a.abs k) := fun j hj k => by rw [← hI.cur]; exact saw_now hF.reach hj k
  have hnow' : ∀ j, j ≠ i → gh.st j ≠ .done → ∀ k, saw gh' j k (g'.a.abs k) := fun j hj hd k => by
    rw [← hF.cur]; exact saw_now hF.reach' (by rw [hF.st j hj]; exact hd) k
  have hsi := hI.mu i op s hv
  have hother : ∀ j, j ≠ i → ∀ o t, v j = some (o, .inl t) → t.holds = true → s.holds = false := by
    intro j hj o t hvj ht
    have h1 := (hI.mu j o t hvj).1 ht
    cases hs : s.holds with
    | false => rfl
    | true => have h2 := hsi.1 hs; rw [h1] at h2; simp at h2; exact absurd h2 hj
  refine ⟨hF.cur, gi_step hA hI.gi, hF.fresh, hF.wfR, hF.wfD, ?_, ?_, ?_, ?_, ?_, ?_⟩
  · intro j o t hvj
    by_cases hj : j = i
    · subst hj
      simp only [upd_same, Option.some.injEq, Prod.mk.injEq] at hvj
      obtain ⟨rfl, rfl⟩ := hvj
      simp only [lockedX] at hmu
      rcases hmu with ⟨h1, h2⟩ | ⟨h1, h2, h3, h4⟩ | ⟨h1, h2, h3⟩
      · rw [← h1, h2]; exact hsi
      · simp [h2, h4]
      · simp [h2, h3]
    · rw [upd_ne _ _ hj] at hvj
      have hm := hI.mu j o t hvj
      rcases hmu with ⟨h1, h2⟩ | ⟨h1, h2, h3, h4⟩ | ⟨h1, h2, h3⟩
      · rw [h2]; exact hm
      · rw [h4]; rw [h3] at hm
        simp only [reduceCtorEq, iff_false, Bool.not_eq_true] at hm
        simp [hm, Ne.symm hj]
      · rw [h3]; rw [hsi.1 h1] at hm
        simp only [reduceCtorEq, iff_false]
        rw [hm]; simp [Ne.symm hj]
  · intro j hj
    rcases hmu with ⟨h1, h2⟩ | ⟨h1, h2, h3, h4⟩ | ⟨h1, h2, h3⟩
    · rw [h2] at hj
      by_cases hji : j = i
      · subst hji
        have := hsi.2 hj
        rw [this] at h1
        cases x with
        | inl t => exact ⟨op, t, by simp, h1.symm⟩
        | inr r => simp [lockedX] at h1
      · rw [upd_ne _ _ hji]; exact hI.muIn j hj
    · rw [h4] at hj
      simp only [Option.some.injEq] at hj
      subst hj
      cases x with
      | inl t => exact ⟨op, t, by simp, h2⟩
      | inr r => simp [lockedX] at h2
    · rw [h3] at hj; simp at hj
  · intro j o t hvj
    by_cases hj : j = i
    · subst hj
      simp only [upd_same, Option.some.injEq, Prod.mk.injEq] at hvj
      obtain ⟨rfl, rfl⟩ := hvj
      exact hF.new.1
    · rw [upd_ne _ _ hj] at hvj
      refine floc_step hA hI.gi (hF.st j hj) (hF.ext j) (hnow j) (hnow' j hj) ?_ (hI.floc j o t hvj)
      intro e he hc hd
      obtain ⟨h1, h2⟩ := hF.drop e hd
      exact hj (hI.own j i o op t s e hvj hv he h1 hc h2)
  · intro j o t hvj ht
    by_cases hj : j = i
    · subst hj
      simp only [upd_same, Option.some.injEq, Prod.mk.injEq] at hvj
      obtain ⟨rfl, rfl⟩ := hvj
      exact hF.new.2 ht
    · rw [upd_ne _ _ hj] at hvj
      obtain ⟨h1, h2⟩ := hb (hother j hj o t hvj ht)
      rw [h1] at hA
      exact lloc_step hA h2 (hI.lloc j o t hvj ht)
  · intro j o r hvj
    by_cases hj : j = i
    · subst hj
      simp only [upd_same, Option.some.injEq, Prod.mk.injEq] at hvj
      obtain ⟨rfl, rfl⟩ := hvj
      exact hF.new
    · rw [upd_ne _ _ hj] at hvj
      exact fin_ext (hF.st j hj) (hF.ext j) (hI.fin j o r hvj)
  · have one : ∀ j, j ≠ i → ∀ o t e, v j = some (o, .inl t) → t.delE = some e → Committed gh j → delX x = some e → Committed gh' i → False := by
      intro j hj o t e hvj ht hc hx hc'
      rcases hF.own e hx hc' with ⟨h1, h2⟩ | ⟨k, hk⟩
      · exact hj (hI.own j i o op t s e hvj hv ht h1 hc h2)
      · obtain ⟨k', ho1, ho2, ho3⟩ := floc_own (hI.floc j o t hvj) ht hc
        have hk2 : g.a.key e = some k := hk.elim (hI.gi.keyR k e) (fun h => hI.gi.keyD k e h.2)
        rw [ho1] at hk2
        simp only [Option.some.injEq] at hk2
        subst hk2
        exact hk.elim ho2 (fun h => ho3 h.2)
    have cj : ∀ j, j ≠ i → Committed gh' j → Committed gh j := by
      rintro j hj ⟨o, r, h⟩
      exact ⟨o, r, by rw [← hF.st j hj]; exact h⟩
    intro j j' o o' t t' e h1 h2 h3 h4 h5 h6
    by_cases hj : j = i <;> by_cases hj' : j' = i
    · rw [hj, hj']
    · subst hj
      rw [upd_ne _ _ hj'] at h2
      simp only [upd_same, Option.some.injEq, Prod.mk.injEq] at h1
      exact (one j' hj' o' t' e h2 h4 (cj j' hj' h6) (by rw [h1.2]; exact h3) h5).elim
    · subst hj'
      rw [upd_ne _ _ hj] at h1
      simp only [upd_same, Option.some.injEq, Prod.mk.injEq] at h2
      exact (one j hj o t e h1 h3 (cj j hj h5) (by rw [h2.2]; exact h4) h6).elim
    · rw [upd_ne _ _ hj] at h1
      rw [upd_ne _ _ hj'] at h2
      exact hI.own j j' o o' t t' e h1 h2 h3 h4 (cj j hj h5) (cj j' hj' h6)

/-- A step of a call that does not hold the lock and does not take it. -/
theorem frame_free {g g' : G K V} {v : Vw K V} {gh gh' : Gh K V} {i : Nat} {op : Op K V} {s : Pt K V} {x : Pt K V ⊕ Res K V}
    {d : Option Nat} (hI : I g v gh) (hv : v i = some (op, .inl s)) (hF : Frame g gh i op s d g' gh' x)
    (hs : s.holds = false) (hx : lockedX x = false) (hmu : g'.mu = g.mu) (hr : g'.read = g.read)
    (hA : ∀ m, AStep true d g.a m g'.a m) : I g' (upd v i (some (op, x))) gh' := by
  refine frame_core (b := true) hI hv hF ?_ (fun _ => ⟨rfl, hr⟩) (Or.inl ⟨by rw [hs, hx], hmu⟩)
  have : modeAt g'.mu (upd v i (some (op, x))) = modeAt g.mu v := by
    rw [hmu]
    unfold modeAt
    cases hm : g.mu with
    | none => rfl
    | some j =>
      have hj : j ≠ i := by
        rintro rfl
        rw [(hI.mu j op s hv).2 hm] at hs; simp at hs
      simp only [upd_ne _ _ hj]
  rw [this]; exact hA _

/-- A step of the holder of the lock. -/
theorem frame_locked {g g' : G K V} {v : Vw K V} {gh gh' : Gh K V} {i : Nat} {op : Op K V} {s : Pt K V} {x : Pt K V ⊕ Res K V} {b : Bool}
    {d : Option Nat} (hI : I g v gh) (hv : v i = some (op, .inl s)) (hF : Frame g gh i op s d g' gh' x)
    (hs : s.holds = true) (hmu : g'.mu = if lockedX x then g.mu else none)
    (hA : AStep b d g.a s.mode g'.a (modeX x)) : I g' (upd v i (some (op, x))) gh' := by
  have hgm := (hI.mu i op s hv).1 hs
  refine frame_core (b := b) hI hv hF ?_ (fun h => by rw [hs] at h; simp at h) ?_
  · have e1 : modeAt g.mu v = s.mode := by simp [modeAt, hgm, hv]
    have e2 : modeAt g'.mu (upd v i (some (op, x))) = modeX x := by
      rw [hmu, hgm]
      cases x with
      | inr r => simp [lockedX, modeAt, modeX]
      | inl t =>
        cases ht : t.holds with
        | true => simp [lockedX, ht, modeAt, modeX]
        | false => simp [lockedX, ht, modeAt, modeX, mode_holds ht]
    rw [e1, e2]; exact hA
  · cases hx : lockedX x with
    | true => exact Or.inl ⟨hs, by simpa [hx] using hmu⟩
    | false => exact Or.inr (Or.inr ⟨hs, rfl, by simpa [hx] using hmu⟩)

end Verif.XSync.MapConc

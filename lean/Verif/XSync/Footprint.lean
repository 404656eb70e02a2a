import Verif.XSync.MapMemProps
import Verif.XSync.ResManMemProps
import Verif.XRing.RaceProps
/-!
# The accesses on which the theorems about data races rest are all there are (C92, C113)

The theorems about data races are about the accesses listed in `Cmd.access`, `Pt.access` and `PC.access`. Here it is shown that these lists are
complete: a step changes only the location it is said to write, and what it does depends only on the location it is said to access.
-/

namespace Verif.XSync.MapMem
open Verif.Conc Verif.Go
open Verif.XSync.MapConc (Ptr Op Res Mode)

variable {K V : Type} [DecidableEq K] [DecidableEq V]

/-- The location has the same contents. -/
def Loc.Same (D E : Plain K) : Loc → Prop
  | .dirty => D.dirty = E.dirty
  | .misses => D.misses = E.misses
  | .map r => D.maps r = E.maps r

/-- **C92.** A step changes no plain location but the one it is said to write (`newMap` makes a map that nobody has). -/
theorem C92_writes {M M' : Mem K V} {i c : Nat} {t : Cmd K V} {x : Cmd K V ⊕ Res K V} (h : exec M i t c = some (M', x)) {l : Loc}
    (hl : ∀ r, l = .map r → r < M.d.nmaps) (hd : ¬ l.Same M.d M'.d) : t.access = some (l, true) := by
  have upd_map : ∀ (r : Nat) (v : GMap K Nat), ¬ l.Same M.d { M.d with maps := upd M.d.maps r v } → l = .map r := by
    intro r v hn
    cases l with
    | dirty => exact absurd rfl hn
    | misses => exact absurd rfl hn
    | map r' =>
      by_cases e : r' = r
      · rw [e]
      · exact absurd (by simp [Loc.Same, upd, e]) hn
  cases t with
  | setDirty x k =>
    simp only [exec, Option.some.injEq, Prod.mk.injEq] at h
    obtain ⟨rfl, -⟩ := h
    cases l with
    | dirty => rfl
    | misses => exact absurd rfl hd
    | map r => exact absurd rfl hd
  | incMisses k =>
    simp only [exec, Option.some.injEq, Prod.mk.injEq] at h
    obtain ⟨rfl, -⟩ := h
    cases l with
    | misses => rfl
    | dirty => exact absurd rfl hd
    | map r => exact absurd rfl hd
  | setMisses n k =>
    simp only [exec, Option.some.injEq, Prod.mk.injEq] at h
    obtain ⟨rfl, -⟩ := h
    cases l with
    | misses => rfl
    | dirty => exact absurd rfl hd
    | map r => exact absurd rfl hd
  | mapSet m key e k =>
    cases m with
    | none =>
      simp only [exec, Option.some.injEq, Prod.mk.injEq] at h
      obtain ⟨rfl, -⟩ := h
      exact absurd (by cases l <;> rfl) hd
    | some r =>
      simp only [exec, Option.some.injEq, Prod.mk.injEq] at h
      obtain ⟨rfl, -⟩ := h
      rw [upd_map r _ hd]; rfl
  | mapDel m key k =>
    cases m with
    | none =>
      simp only [exec, Option.some.injEq, Prod.mk.injEq] at h
      obtain ⟨rfl, -⟩ := h
      exact absurd (by cases l <;> rfl) hd
    | some r =>
      simp only [exec, Option.some.injEq, Prod.mk.injEq] at h
      obtain ⟨rfl, -⟩ := h
      rw [upd_map r _ hd]; rfl
  | newMap k =>
    simp only [exec, Option.some.injEq, Prod.mk.injEq] at h
    obtain ⟨rfl, -⟩ := h
    exact absurd (hl _ (upd_map M.d.nmaps [] hd)) (Nat.lt_irrefl _)
  | casPtr e old new k =>
    simp only [exec] at h
    split at h <;>
    · simp only [Option.some.injEq, Prod.mk.injEq] at h
      obtain ⟨rfl, -⟩ := h
      exact absurd (by cases l <;> rfl) hd
  | lock k =>
    simp only [exec] at h
    split at h
    · simp at h
    · simp only [Option.some.injEq, Prod.mk.injEq] at h
      obtain ⟨rfl, -⟩ := h
      exact absurd (by cases l <;> rfl) hd
  | mapNext m seen k =>
    simp only [exec] at h
    split at h
    · simp only [Option.some.injEq, Prod.mk.injEq] at h
      obtain ⟨rfl, -⟩ := h
      exact absurd (by cases l <;> rfl) hd
    · split at h
      · simp at h
      · simp only [Option.some.injEq, Prod.mk.injEq] at h
        obtain ⟨rfl, -⟩ := h
        exact absurd (by cases l <;> rfl) hd
  | _ =>
    simp only [exec, Option.some.injEq, Prod.mk.injEq] at h
    obtain ⟨rfl, -⟩ := h
    exact absurd (by cases l <;> rfl) hd

/-- The memories differ at most in plain locations. -/
def Mem.SameSync (M N : Mem K V) : Prop := M.mu = N.mu ∧ M.read = N.read ∧ M.ptr = N.ptr ∧ M.ents = N.ents ∧ M.d.nmaps = N.d.nmaps

/-- **C92.** What a step does depends on no plain location but the one it is said to access. -/
theorem C92_reads {M N M' : Mem K V} {i c : Nat} {t : Cmd K V} {x : Cmd K V ⊕ Res K V} (hs : M.SameSync N)
    (ha : ∀ l w, t.access = some (l, w) → l.Same M.d N.d) (h : exec M i t c = some (M', x)) :
    ∃ N', exec N i t c = some (N', x) ∧ M'.SameSync N' ∧ ∀ l : Loc, l.Same M.d N.d ∨ t.access = some (l, true) → l.Same M'.d N'.d := by
  obtain ⟨Mmu, Mread, ⟨Md, Mm, Mmaps, Mn, Mp⟩, Mptr, Ments⟩ := M
  obtain ⟨Nmu, Nread, ⟨Nd, Nm, Nmaps, Nn, Np⟩, Nptr, Nents⟩ := N
  obtain ⟨h1, h2, h3, h4, h5⟩ := hs
  simp only at h1 h2 h3 h4 h5
  subst h1 h2 h3 h4 h5
  have get : ∀ (m : Option Nat), (∀ r, m = some r → Mmaps r = Nmaps r) →
      (⟨Md, Mm, Mmaps, Mn, Mp⟩ : Plain K).get m = (⟨Nd, Nm, Nmaps, Mn, Np⟩ : Plain K).get m := by
    intro m hm
    cases m with
    | none => rfl
    | some r => exact hm r rfl
  have updm : ∀ (r : Nat) (v v' : GMap K Nat) (l : Loc), v = v' →
      (l.Same (⟨Md, Mm, Mmaps, Mn, Mp⟩ : Plain K) ⟨Nd, Nm, Nmaps, Mn, Np⟩ ∨ l = .map r) → ∀ n,
      l.Same (⟨Md, Mm, upd Mmaps r v, n, Mp⟩ : Plain K) ⟨Nd, Nm, upd Nmaps r v', n, Np⟩ := by
    intro r v v' l hv hl n
    subst hv
    cases l with
    | dirty => exact hl.elim id (by simp)
    | misses => exact hl.elim id (by simp)
    | map r' =>
      by_cases e : r' = r
      · subst e; simp [Loc.Same, upd]
      · simp only [Loc.map.injEq, e, or_false] at hl
        simpa [Loc.Same, upd, e] using hl
  cases t with
  | casPtr e old new k =>
    simp only [exec] at h ⊢
    split at h <;> rename_i hp <;> simp only [Option.some.injEq, Prod.mk.injEq] at h <;> obtain ⟨rfl, rfl⟩ := h
    · exact ⟨_, if_pos hp, ⟨rfl, rfl, rfl, rfl, rfl⟩, fun l hl => hl.elim (by cases l <;> exact id) (by simp [Cmd.access])⟩
    · exact ⟨_, if_neg hp, ⟨rfl, rfl, rfl, rfl, rfl⟩, fun l hl => hl.elim (by cases l <;> exact id) (by simp [Cmd.access])⟩
  | lock k =>
    simp only [exec] at h ⊢
    split at h
    · simp at h
    · rename_i hp
      simp only [Option.some.injEq, Prod.mk.injEq] at h
      obtain ⟨rfl, rfl⟩ := h
      exact ⟨_, if_neg hp, ⟨rfl, rfl, rfl, rfl, rfl⟩, fun l hl => hl.elim (by cases l <;> exact id) (by simp [Cmd.access])⟩
  | getDirty k =>
    have := ha _ _ rfl
    simp only [Loc.Same] at this
    subst this
    simp only [exec, Option.some.injEq, Prod.mk.injEq] at h ⊢
    obtain ⟨rfl, rfl⟩ := h
    exact ⟨_, ⟨rfl, rfl⟩, ⟨rfl, rfl, rfl, rfl, rfl⟩, fun l hl => hl.elim (by cases l <;> exact id) (by simp [Cmd.access])⟩
  | getMisses k =>
    have := ha _ _ rfl
    simp only [Loc.Same] at this
    subst this
    simp only [exec, Option.some.injEq, Prod.mk.injEq] at h ⊢
    obtain ⟨rfl, rfl⟩ := h
    exact ⟨_, ⟨rfl, rfl⟩, ⟨rfl, rfl, rfl, rfl, rfl⟩, fun l hl => hl.elim (by cases l <;> exact id) (by simp [Cmd.access])⟩
  | incMisses k =>
    have := ha _ _ rfl
    simp only [Loc.Same] at this
    subst this
    simp only [exec, Option.some.injEq, Prod.mk.injEq] at h ⊢
    obtain ⟨rfl, rfl⟩ := h
    refine ⟨_, ⟨rfl, rfl⟩, ⟨rfl, rfl, rfl, rfl, rfl⟩, fun l hl => ?_⟩
    cases l with
    | misses => rfl
    | dirty => exact hl.elim id (by simp [Cmd.access])
    | map r => exact hl.elim id (by simp [Cmd.access])
  | setDirty d k =>
    simp only [exec, Option.some.injEq, Prod.mk.injEq] at h ⊢
    obtain ⟨rfl, rfl⟩ := h
    refine ⟨_, ⟨rfl, rfl⟩, ⟨rfl, rfl, rfl, rfl, rfl⟩, fun l hl => ?_⟩
    cases l with
    | dirty => rfl
    | misses => exact hl.elim id (by simp [Cmd.access])
    | map r => exact hl.elim id (by simp [Cmd.access])
  | setMisses n k =>
    simp only [exec, Option.some.injEq, Prod.mk.injEq] at h ⊢
    obtain ⟨rfl, rfl⟩ := h
    refine ⟨_, ⟨rfl, rfl⟩, ⟨rfl, rfl, rfl, rfl, rfl⟩, fun l hl => ?_⟩
    cases l with
    | misses => rfl
    | dirty => exact hl.elim id (by simp [Cmd.access])
    | map r => exact hl.elim id (by simp [Cmd.access])
  | mapGet m key k =>
    have e := get m fun r hr => by subst hr; exact ha _ _ rfl
    simp only [exec, Option.some.injEq, Prod.mk.injEq, e] at h ⊢
    obtain ⟨rfl, rfl⟩ := h
    exact ⟨_, ⟨rfl, rfl⟩, ⟨rfl, rfl, rfl, rfl, rfl⟩, fun l hl => hl.elim (by cases l <;> exact id) (by cases m <;> simp [Cmd.access])⟩
  | mapLen m k =>
    have e := get m fun r hr => by subst hr; exact ha _ _ rfl
    simp only [exec, Option.some.injEq, Prod.mk.injEq, e] at h ⊢
    obtain ⟨rfl, rfl⟩ := h
    exact ⟨_, ⟨rfl, rfl⟩, ⟨rfl, rfl, rfl, rfl, rfl⟩, fun l hl => hl.elim (by cases l <;> exact id) (by cases m <;> simp [Cmd.access])⟩
  | mapNext m seen k =>
    have e := get m fun r hr => by subst hr; exact ha _ _ rfl
    simp only [exec, Plain.rest, e] at h ⊢
    split at h
    · rename_i hz
      simp only [Option.some.injEq, Prod.mk.injEq] at h
      obtain ⟨rfl, rfl⟩ := h
      exact ⟨_, rfl, ⟨rfl, rfl, rfl, rfl, rfl⟩, fun l hl => hl.elim (by cases l <;> exact id) (by cases m <;> simp [Cmd.access])⟩
    · rename_i hz
      split at h
      · simp at h
      · rename_i y hy
        simp only [Option.some.injEq, Prod.mk.injEq] at h
        obtain ⟨rfl, rfl⟩ := h
        exact ⟨_, rfl, ⟨rfl, rfl, rfl, rfl, rfl⟩, fun l hl => hl.elim (by cases l <;> exact id) (by cases m <;> simp [Cmd.access])⟩
  | mapSet m key e k =>
    cases m with
    | none =>
      simp only [exec, Option.some.injEq, Prod.mk.injEq] at h ⊢
      obtain ⟨rfl, rfl⟩ := h
      exact ⟨_, ⟨rfl, rfl⟩, ⟨rfl, rfl, rfl, rfl, rfl⟩, fun l hl => hl.elim (by cases l <;> exact id) (by simp [Cmd.access])⟩
    | some r =>
      have hr := ha _ _ rfl
      simp only [Loc.Same] at hr
      simp only [exec, Option.some.injEq, Prod.mk.injEq] at h ⊢
      obtain ⟨rfl, rfl⟩ := h
      refine ⟨_, ⟨rfl, rfl⟩, ⟨rfl, rfl, rfl, rfl, rfl⟩, fun l hl => updm r _ _ l (by rw [hr]) (hl.imp id fun hl => ?_) _⟩
      simp only [Cmd.access, Option.some.injEq, Prod.mk.injEq, and_true] at hl
      exact hl.symm
  | mapDel m key k =>
    cases m with
    | none =>
      simp only [exec, Option.some.injEq, Prod.mk.injEq] at h ⊢
      obtain ⟨rfl, rfl⟩ := h
      exact ⟨_, ⟨rfl, rfl⟩, ⟨rfl, rfl, rfl, rfl, rfl⟩, fun l hl => hl.elim (by cases l <;> exact id) (by simp [Cmd.access])⟩
    | some r =>
      have hr := ha _ _ rfl
      simp only [Loc.Same] at hr
      simp only [exec, Option.some.injEq, Prod.mk.injEq] at h ⊢
      obtain ⟨rfl, rfl⟩ := h
      refine ⟨_, ⟨rfl, rfl⟩, ⟨rfl, rfl, rfl, rfl, rfl⟩, fun l hl => updm r _ _ l (by rw [hr]) (hl.imp id fun hl => ?_) _⟩
      simp only [Cmd.access, Option.some.injEq, Prod.mk.injEq, and_true] at hl
      exact hl.symm
  | newMap k =>
    simp only [exec, Option.some.injEq, Prod.mk.injEq] at h ⊢
    obtain ⟨rfl, rfl⟩ := h
    exact ⟨_, ⟨rfl, rfl⟩, ⟨rfl, rfl, rfl, rfl, rfl⟩, fun l hl => updm Mn [] [] l rfl (hl.imp id (by simp [Cmd.access])) _⟩
  | _ =>
    simp only [exec, Option.some.injEq, Prod.mk.injEq] at h ⊢
    obtain ⟨rfl, rfl⟩ := h
    exact ⟨_, ⟨rfl, rfl⟩, ⟨rfl, rfl, rfl, rfl, rfl⟩, fun l hl => hl.elim (by cases l <;> exact id) (by simp [Cmd.access])⟩

example : Cmd.access (missLocked (K := Nat) (V := Nat) (.ret .unit)) = some (.misses, true) :=
  C92_writes (M := Mem.zero) (i := 0) (c := 0) (l := .misses) rfl (by simp) (by simp [Loc.Same, Mem.zero])

example (n : Nat) : ∃ N', exec (K := Nat) (V := Nat) ⟨none, ⟨none, false⟩, ⟨none, n, fun _ => [], 0, []⟩, fun _ => .nil, 0⟩ 0 (.getDirty fun _ => .ret .unit) 0 =
    some (N', .inl (.ret .unit)) := by
  obtain ⟨N', h, _⟩ := C92_reads (K := Nat) (V := Nat) (M := Mem.zero) (N := ⟨none, ⟨none, false⟩, ⟨none, n, fun _ => [], 0, []⟩, fun _ => .nil, 0⟩)
    (i := 0) (c := 0) (t := .getDirty fun _ => .ret .unit) ⟨rfl, rfl, rfl, rfl, rfl⟩
    (by intro l w h; simp only [Cmd.access, Option.some.injEq, Prod.mk.injEq] at h; rw [← h.1]; rfl) rfl
  exact ⟨N', h⟩

end Verif.XSync.MapMem

namespace Verif.XSync.ResManMem
open Verif.Conc Verif.XSync.ResMan

variable {K E : Type} [DecidableEq K]

/-- The location has the same contents. -/
def Loc.Same (M N : Mem K E) : Loc → Prop
  | .field => M.field = N.field
  | .map => M.map = N.map

/-- The lock and singleflight's own data are the same. -/
def Mem.SameSync (M N : Mem K E) : Prop := M.writer = N.writer ∧ M.readers = N.readers ∧ M.flight = N.flight ∧ M.fin = N.fin

/-- **C113.** A step changes no plain location but the one it is said to write. -/
theorem C113_resman_writes {cerr : Nat → Option E} {M M' : Mem K E} {i c : Nat} {op : Op K E} {s : Pt K E} {x : Pt K E ⊕ Res' E}
    (h : (prog cerr).step M i op s c = some (M', x)) {l : Loc} (hd : ¬ l.Same M M') : s.access = some (l, true) := by
  cases op <;> cases s <;> simp only [prog, getStep, removeStep, closeStep, reduceCtorEq] at h <;> (try split at h) <;> (try split at h) <;>
    simp only [Option.some.injEq, Prod.mk.injEq, reduceCtorEq] at h <;> obtain ⟨rfl, -⟩ := h <;> cases l <;> first | rfl | exact absurd rfl hd

/-- **C113.** What a step does depends on no plain location but the one it is said to access. -/
theorem C113_resman_reads {cerr : Nat → Option E} {M N M' : Mem K E} {i c : Nat} {op : Op K E} {s : Pt K E} {x : Pt K E ⊕ Res' E}
    (hs : M.SameSync N) (ha : ∀ l w, s.access = some (l, w) → l.Same M N) (h : (prog cerr).step M i op s c = some (M', x)) :
    ∃ N', (prog cerr).step N i op s c = some (N', x) ∧ M'.SameSync N' ∧ ∀ l : Loc, l.Same M N → l.Same M' N' := by
  obtain ⟨Mf, Mm, Mw, Mr, Mfl, Mfi, M1, M2, M3, M4, M5⟩ := M
  obtain ⟨Nf, Nm, Nw, Nr, Nfl, Nfi, N1, N2, N3, N4, N5⟩ := N
  obtain ⟨h1, h2, h3, h4⟩ := hs
  simp only at h1 h2 h3 h4
  subst h1 h2 h3 h4
  have hf : ∀ w, s.access = some (.field, w) → Mf = Nf := fun w hw => ha _ _ hw
  have hm : ∀ w, s.access = some (.map, w) → Mm = Nm := fun w hw => ha _ _ hw
  clear ha
  cases op <;> cases s <;> simp only [prog, getStep, removeStep, closeStep, reduceCtorEq] at h ⊢ <;>
    (try obtain rfl := hf _ rfl) <;> (try obtain rfl := hm _ rfl) <;> clear hf hm <;> (try split at h) <;> (try split at h) <;>
    simp only [Option.some.injEq, Prod.mk.injEq, reduceCtorEq] at h <;> obtain ⟨rfl, rfl⟩ := h <;>
    first
    | exact ⟨_, rfl, ⟨rfl, rfl, rfl, rfl⟩, fun l hl => by cases l <;> first | exact hl | rfl⟩
    | exact ⟨_, if_pos ‹_›, ⟨rfl, rfl, rfl, rfl⟩, fun l hl => by cases l <;> first | exact hl | rfl⟩
    | exact ⟨_, if_neg ‹_›, ⟨rfl, rfl, rfl, rfl⟩, fun l hl => by cases l <;> exact hl⟩
    | (rw [if_pos ‹_›]; exact ⟨_, rfl, ⟨rfl, rfl, rfl, rfl⟩, fun l hl => by cases l <;> exact hl⟩)
    | (rw [if_neg ‹_›]; exact ⟨_, rfl, ⟨rfl, rfl, rfl, rfl⟩, fun l hl => by cases l <;> exact hl⟩)

example : Pt.access (K := Nat) (E := Nat) .storeMap = some (.map, true) :=
  C113_resman_writes (cerr := fun _ => none) (M := new) (i := 0) (c := 0) (op := .get 3 none) rfl (l := .map) (by simp [Loc.Same, new, ResMan.insert])

end Verif.XSync.ResManMem

namespace Verif.XRing.Conc
open Verif.Conc

variable {α : Type}

/-- The location has the same contents. -/
def Loc.Same (r s : Ring α) : Loc → Prop
  | .index => r.index = s.index
  | .slots => r.elements = s.elements

/-- **C113.** A step changes no plain location but the one it is said to write; the number of slots never changes. -/
theorem C113_ring_writes {m m' : St α} {i : Nat} {e : Option (Ev (Call α) (Res α))} (h : next m i = some (e, m')) :
    m'.ring.elements.length = m.ring.elements.length ∧ ∀ l : Loc, ¬ l.Same m.ring m'.ring → (m.pc i).access = some (l, true) := by
  unfold next at h
  split at h <;> rename_i hp <;> rw [hp] <;> (try dsimp only at h) <;> (try split at h) <;> (try split at h) <;> simp only [Option.some.injEq, Prod.mk.injEq, reduceCtorEq] at h <;>
    obtain ⟨-, rfl⟩ := h <;> refine ⟨by simp [St.goto], fun l hd => ?_⟩ <;> cases l <;> first | rfl | exact absurd rfl hd

/-- **C113.** What a step does depends on no plain location but the one it is said to access. -/
theorem C113_ring_reads {m n m' : St α} {i : Nat} {e : Option (Ev (Call α) (Res α))} (hp : m.pc = n.pc) (hw : m.writer = n.writer)
    (hr : m.readers = n.readers) (hl : m.ring.elements.length = n.ring.elements.length)
    (ha : ∀ l w, (m.pc i).access = some (l, w) → l.Same m.ring n.ring) (h : next m i = some (e, m')) :
    ∃ n', next n i = some (e, n') ∧ m'.pc = n'.pc ∧ m'.writer = n'.writer ∧ m'.readers = n'.readers ∧
      ∀ l : Loc, l.Same m.ring n.ring → l.Same m'.ring n'.ring := by
  obtain ⟨⟨me, mi⟩, mw, mr, mp⟩ := m
  obtain ⟨⟨ne, ni⟩, nw, nr, np⟩ := n
  simp only at hp hw hr hl ha
  subst hp hw hr
  have hi : ∀ w, (mp i).access = some (.index, w) → mi = ni := fun w hw => ha _ _ hw
  have he : ∀ w, (mp i).access = some (.slots, w) → me = ne := fun w hw => ha _ _ hw
  clear ha
  unfold next at h ⊢
  simp only at h ⊢
  generalize hq : mp i = q at h hi he ⊢
  cases q <;> simp only [reduceCtorEq] at h ⊢ <;> (try obtain rfl := hi _ rfl) <;> (try obtain rfl := he _ rfl) <;> clear hi he <;>
    (try rw [hl] at h) <;> (try split at h) <;> (try split at h) <;>
    simp only [Option.some.injEq, Prod.mk.injEq, reduceCtorEq] at h <;> obtain ⟨rfl, rfl⟩ := h <;>
    (try simp only [*]) <;> 
    exact ⟨_, rfl, rfl, rfl, rfl, fun l hl => by cases l <;> first | exact hl | rfl⟩

example : ((⟨⟨[0], 0⟩, some 1, [], upd (fun _ => .idle) 1 (.addStore 7 0)⟩ : St Nat).pc 1).access = some (.slots, true) :=
  (C113_ring_writes (i := 1) (e := none) rfl).2 .slots (by simp [Loc.Same])

end Verif.XRing.Conc
